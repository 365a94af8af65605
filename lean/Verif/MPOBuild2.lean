import Verif.MPOBuild

set_option linter.unusedSectionVars false
set_option linter.unusedSimpArgs false

/-! # Helper lemmas: each building function is a channel addition -/

namespace MPS
open Tensor
variable {R : Type} [CommRing R]

theorem setSlice_get (P : Tensor R) (a b : Nat) (M : Tensor R) (a' x y b' : Nat) :
    (setSlice P a b M).get [a', x, y, b'] = if a' = a ∧ b' = b then M.get [x, y] else P.get [a', x, y, b'] := by
  simp [setSlice]

@[simp] theorem setSlice_dims (P : Tensor R) (a b : Nat) (M : Tensor R) :
    (setSlice P a b M).dims = P.dims := rfl

theorem eye_get (d x y : Nat) : (eye d : Tensor R).get [x, y] = dlt x y := by simp [eye, dlt]

theorem changeDim3 {P : Tensor R} {dl d dr n : Nat} (h : P.dims = [dl, d, d, dr]) :
    (changeDim P 3 n).dims = [dl, d, d, n] ∧ ∀ a x y b,
      (changeDim P 3 n).get [a, x, y, b] = if b < dr then P.get [a, x, y, b] else 0 := by
  constructor <;> simp [changeDim, h]

theorem changeDim0 {P : Tensor R} {dl d dr n : Nat} (h : P.dims = [dl, d, d, dr]) :
    (changeDim P 0 n).dims = [n, d, d, dr] ∧ ∀ a x y b,
      (changeDim P 0 n).get [a, x, y, b] = if a < dl then P.get [a, x, y, b] else 0 := by
  constructor <;> simp [changeDim, h]

/-- a site that is not touched -/
theorem ChanT.refl {P : Tensor R} {cl dl d dr : Nat} {X Y S Z : Nat → Nat → R}
    (h : P.dims = [dl, d, d, dr]) (hZ : ∀ x y, Z x y = 0) : ChanT false false cl X Y S Z P P dl d dr :=
  ⟨by simpa using h, fun _ _ _ _ _ _ _ _ => by simp [hZ], by simp, by simp, by simp⟩

/-! ### new MPO -/

theorem clearSite_suffix (size : Nat) (ds : List Nat) (k : Nat) (hk : 1 ≤ k) (hne : ds ≠ [])
    (hs : k + ds.length = size) (hd : ∀ d ∈ ds, 0 < d) :
    HSuf 2 (ds.mapIdx fun i d => (clearSite size (k + i) d : Tensor R)) ds ∧
    ∀ s t, opPath (ds.mapIdx fun i d => (clearSite size (k + i) d : Tensor R)) s t 0 0 = 0 := by
  induction ds generalizing k with
  | nil => exact absurd rfl hne
  | cons d ds ih =>
    rw [List.mapIdx_cons]
    have e : (fun (i : Nat) (d : Nat) => (clearSite size (k + (i + 1)) d : Tensor R))
        = fun i d => clearSite size (k + 1 + i) d := by
      funext i d; congr 1; omega
    simp only [Nat.add_zero, e]
    by_cases hds : ds = []
    · subst hds
      have h1 : (clearSite size k d : Tensor R) = setSlice (zeros [2, d, d, 1]) 1 0 (eye d) := by
        have : ¬ (k + 1 < size) := by simp at hs; omega
        simp [clearSite, show k ≠ 0 by omega, this]
      rw [h1]
      refine ⟨HSuf.last rfl (by omega) (hd d (by simp)) (fun x y _ _ => ?_), fun s t => ?_⟩
      · rw [setSlice_get, if_pos ⟨rfl, rfl⟩, eye_get]
      · cases s with
        | nil => rfl
        | cons x s => cases t with
          | nil => rfl
          | cons y t =>
            simp only [List.mapIdx_nil, opPath_cons]
            refine Finset.sum_eq_zero fun c _ => ?_
            rw [setSlice_get, if_neg (by omega)]; simp [zeros]
    · have hlen : ds.length ≠ 0 := by simpa using hds
      obtain ⟨i1, i2⟩ := ih (k + 1) (by omega) hds (by simp at hs; omega) (fun d hd' => hd d (by simp [hd']))
      have h1 : (clearSite size k d : Tensor R)
          = setSlice (setSlice (zeros [2, d, d, 2]) 1 1 (eye d)) 0 0 (eye d) := by
        have : k + 1 < size := by simp at hs; omega
        simp [clearSite, show k ≠ 0 by omega, this]
      rw [h1]
      refine ⟨HSuf.mid rfl (by omega) (by omega) (hd d (by simp)) ?_ ?_ i1, fun s t => ?_⟩
      · intro x y c _ _ _
        rw [setSlice_get, if_neg (by omega), setSlice_get]
        by_cases hc : c = 1 <;> simp [hc, eye_get, zeros]
      · intro x y a _ _ _
        rw [setSlice_get, setSlice_get]
        by_cases ha : a = 0 <;> simp [ha, eye_get, zeros]
      · cases s with
        | nil => rfl
        | cons x s => cases t with
          | nil => rfl
          | cons y t =>
            rw [opPath_cons]
            refine Finset.sum_eq_zero fun c _ => ?_
            by_cases hc : c = 0
            · subst hc; rw [i2, mul_zero]
            · rw [setSlice_get, if_neg (by omega), setSlice_get, if_neg (by omega)]; simp [zeros]

theorem newMPO_spec {ds : List Nat} (h2 : 2 ≤ ds.length) (hd : ∀ d ∈ ds, 0 < d) :
    ∃ O : List (Tensor R), newMPO ds = some O ∧ HInv ds O ∧ ∀ s t, opElt O s t = 0 := by
  refine ⟨ds.mapIdx fun i d => clearSite ds.length i d, by rw [newMPO, if_neg (by omega)], ?_⟩
  cases ds with
  | nil => simp at h2
  | cons d ds =>
    rw [List.mapIdx_cons]
    have hne : ds ≠ [] := by intro h; subst h; simp at h2
    obtain ⟨i1, i2⟩ := clearSite_suffix (R := R) (d :: ds).length ds 1 (by omega) hne (by simp; omega)
      (fun d hd' => hd d (by simp [hd']))
    have e : (fun (i : Nat) (d' : Nat) => (clearSite (d :: ds).length (i + 1) d' : Tensor R))
        = fun i d' => clearSite (d :: ds).length (1 + i) d' := by
      funext i d; congr 1; omega
    rw [e]
    have h1 : (clearSite (d :: ds).length 0 d : Tensor R) = setSlice (zeros [1, d, d, 2]) 0 0 (eye d) := by
      simp [clearSite]
    rw [h1]
    refine ⟨⟨_, _, d, ds, 2, rfl, rfl, rfl, hd d (by simp), fun x y _ _ => ?_, i1⟩, fun s t => ?_⟩
    · rw [setSlice_get, if_pos ⟨rfl, rfl⟩, eye_get]
    · rw [opElt]
      refine Finset.sum_eq_zero fun a ha => ?_
      have ha : a = 0 := by simpa [dim, zeros] using ha
      subst ha
      cases s with
      | nil => rfl
      | cons x s => cases t with
        | nil => rfl
        | cons y t =>
          rw [opPath_cons]
          refine Finset.sum_eq_zero fun c _ => ?_
          by_cases hc : c = 0
          · subst hc; rw [i2, mul_zero]
          · rw [setSlice_get, if_neg (by omega)]; simp [zeros]

/-! ### from products over sites to `tensorOp` -/

theorem prodFrom_tensorOp {F : Nat → Nat → Nat → R} {f : Nat → Tensor R} {ds s t : List Nat}
    (hs : IsCfg ds s) (ht : IsCfg ds t)
    (h : ∀ j x y, j < ds.length → F j x y = (f j).get [x, y]) :
    prodFrom F 0 s t = tensorOp ds.length f s t := by
  rw [prodFrom_eq_prod F 0 s t (by rw [hs.length, ht.length]), tensorOp, hs.length]
  refine Finset.prod_congr rfl fun j hj => ?_
  rw [Nat.zero_add, h j _ _ (Finset.mem_range.1 hj)]

theorem prodFrom_zero {F : Nat → Nat → Nat → R} {s t : List Nat} (hl : s.length = t.length) {a : Nat}
    (ha : a < s.length) (h : ∀ x y, F a x y = 0) : prodFrom F 0 s t = 0 := by
  rw [prodFrom_eq_prod F 0 s t hl]
  exact Finset.prod_eq_zero (Finset.mem_range.2 ha) (by rw [Nat.zero_add]; exact h _ _)

/-! ### local terms -/

theorem add_local_gen {O O' : List (Tensor R)} {ds : List Nat} {k : Nat} {h : Tensor R} (hO : HInv ds O)
    (hk : k < ds.length) (hlen : O'.length = O.length)
    (hch : ∀ j, j < O.length → ChanT false false (if j + 1 = O.length then 0 else 1)
      (fun _ _ => 0) (fun _ _ => 0) (fun _ _ => 0)
      (fun x y => if j = k then h.get [x, y] else 0) (site O j) (site O' j)
      ((site O j).dim 0) ((site O j).dim 1) ((site O j).dim 3)) :
    HInv ds O' ∧ ∀ s t, IsCfg ds s → IsCfg ds t →
      opElt O' s t = opElt O s t
        + tensorOp ds.length (fun j => if j = k then h else eye (ds.getD j 0)) s t := by
  have := chan_add (op := fun _ => false) (X := fun _ _ _ => 0) (Y := fun _ _ _ => 0)
    (S := fun _ _ _ => 0) (Z := fun j x y => if j = k then h.get [x, y] else 0) hO hlen rfl rfl hch
  refine ⟨this.1, fun s t hs ht => ?_⟩
  have hl : s.length = t.length := by rw [hs.length, ht.length]
  rw [this.2 s t hs ht, chT_closed (st := 0) (en := 0) (fun k => by simp) 0 s t hl (by omega)]
  congr 1
  simp only [Finset.Ico_eq_empty_of_le (Nat.zero_le _), Finset.sum_empty, zero_add]
  rw [Finset.sum_eq_single k]
  · exact prodFrom_tensorOp hs ht fun j x y _ => by
      by_cases hj : j = k <;> simp [oneOp, hj, eye_get]
  · intro a ha hak
    rw [Finset.mem_Ico] at ha
    exact prodFrom_zero hl ha.2 fun x y => by simp [oneOp, hak]
  · intro h; exact absurd (Finset.mem_Ico.2 ⟨by omega, by rw [hs.length]; omega⟩) h

theorem add_get_val (A B : Tensor R) (i : List Nat) : (Tensor.add A B).get i = A.get i + B.get i := rfl

theorem siteO_set_self {O : List (Tensor R)} {k : Nat} (h : k < O.length) (A : Tensor R) :
    site (O.set k A) k = A := by simp [site, h]
theorem siteO_set_ne {O : List (Tensor R)} {k j : Nat} (h : j ≠ k) (A : Tensor R) :
    site (O.set k A) j = site O j := by simp [site, List.getElem?_set_ne (Ne.symm h)]

theorem addLocalTerm_spec {O : List (Tensor R)} {ds : List Nat} {k : Nat} {h : Tensor R} (hO : HInv ds O)
    (hk : k < ds.length) (hh : h.dims = [ds.getD k 0, ds.getD k 0]) :
    ∃ O', addLocalTerm O h k = some O' ∧ HInv ds O' ∧ ∀ s t, IsCfg ds s → IsCfg ds t →
      opElt O' s t = opElt O s t
        + tensorOp ds.length (fun j => if j = k then h else eye (ds.getD j 0)) s t := by
  have hlen := hO.length
  obtain ⟨dl, dr, e1, e2, e3, e4, e5⟩ := hO.site_dims hk
  have d0 : (site O k).dim 0 = dl := by simp [dim, e1]
  have d1 : (site O k).dim 1 = ds.getD k 0 := by simp [dim, e1]
  have d3 : (site O k).dim 3 = dr := by simp [dim, e1]
  have h0 : h.dim 0 = ds.getD k 0 := by simp [dim, hh]
  have h1 : h.dim 1 = ds.getD k 0 := by simp [dim, hh]
  refine ⟨O.set k (addLocalSite (site O k) h), ?_, add_local_gen (h := h) (k := k) hO hk (by simp) ?_⟩
  · unfold addLocalTerm
    rw [if_neg (by omega), if_neg (by rw [h0, h1]; simp)]
    simp only [Int.toNat_natCast, d1, h0]
    simp
  · intro j hj
    obtain ⟨dl', dr', f1, f2, f3, f4, f5⟩ := hO.site_dims (k := j) (by omega)
    by_cases hjk : j = k
    · subst hjk
      rw [siteO_set_self (by omega), d0, d1, d3]
      have hcl : addLocalSite (site O j) h = setSlice (site O j) 0 (if j + 1 = O.length then 0 else 1)
          (Tensor.add (getSlice (site O j) 0 (if j + 1 = O.length then 0 else 1)) h) := by
        unfold addLocalSite
        rw [d0, d3]
        have h2 := hO.two_le
        by_cases hd0 : dl = 1
        · rw [if_pos hd0, if_neg]
          intro h
          have := e3 (by omega); omega
        · rw [if_neg hd0]
          by_cases hdr : dr = 1
          · rw [if_pos hdr, if_pos]
            by_contra hc
            have := e5 (by omega); omega
          · rw [if_neg hdr, if_neg]
            intro h; exact hdr (e4 (by omega))
      rw [hcl]
      refine ⟨by simpa using e1, fun a x y b ha hb hx hy => ?_, by simp, by simp, by simp⟩
      rw [setSlice_get]
      by_cases hab : a = 0 ∧ b = if j + 1 = O.length then 0 else 1
      · rw [if_pos hab, if_pos hab, add_get_val]
        simp [getSlice, hab.1, hab.2]
      · rw [if_neg hab, if_neg hab, add_zero]
    · rw [siteO_set_ne hjk]
      have g0 : (site O j).dim 0 = dl' := by simp [dim, f1]
      have g1 : (site O j).dim 1 = ds.getD j 0 := by simp [dim, f1]
      have g3 : (site O j).dim 3 = dr' := by simp [dim, f1]
      rw [g0, g1, g3]
      exact ChanT.refl f1 (by simp [hjk])

/-! ### channels over a range of sites -/

/-- the general channel addition between `st` and `en - 1`, result written with `tensorOp` -/
theorem add_chan_gen {O O' : List (Tensor R)} {ds : List Nat} {st en : Nat} {X Y S : Nat → Nat → Nat → R}
    (hO : HInv ds O) (hen : en ≤ ds.length) (hlen : O'.length = O.length)
    (hch : ∀ j, j < O.length → ChanT (decide (st < j ∧ j < en)) (decide (st < j + 1 ∧ j + 1 < en))
      (if j + 1 = O.length then 0 else 1) (X j) (Y j) (S j) (fun _ _ => 0) (site O j) (site O' j)
      ((site O j).dim 0) ((site O j).dim 1) ((site O j).dim 3)) :
    HInv ds O' ∧ ∀ s t, IsCfg ds s → IsCfg ds t →
      opElt O' s t = opElt O s t + ∑ a ∈ Finset.Ico st en, ∑ b ∈ Finset.Ico (a + 1) en,
        prodFrom (strOp X Y S a b) 0 s t := by
  have := chan_add (op := fun j => decide (st < j ∧ j < en)) (X := X) (Y := Y)
    (S := S) (Z := fun _ _ _ => 0) hO hlen (by simp) (by simp; rw [hO.length]; omega) hch
  refine ⟨this.1, fun s t hs ht => ?_⟩
  have hl : s.length = t.length := by rw [hs.length, ht.length]
  rw [this.2 s t hs ht, chT_closed (st := st) (en := en) (fun k => rfl) 0 s t hl
    (by rw [hs.length]; omega)]
  congr 1
  rw [Nat.zero_max]
  have : ∑ a ∈ Finset.Ico 0 (0 + s.length), prodFrom (oneOp (fun _ _ _ => (0:R)) a) 0 s t = 0 := by
    refine Finset.sum_eq_zero fun a ha => ?_
    rw [Finset.mem_Ico] at ha
    exact prodFrom_zero (a := a) hl (by omega) fun x y => by simp [oneOp]
  rw [this, add_zero]

theorem addInteraction_spec {O : List (Tensor R)} {ds : List Nat} {i : Nat} {Hi Hj : Tensor R}
    (hO : HInv ds O) (hi : i + 1 < ds.length) (h1 : Hi.dims = [ds.getD i 0, ds.getD i 0])
    (h2 : Hj.dims = [ds.getD (i + 1) 0, ds.getD (i + 1) 0]) :
    ∃ O', addInteraction O Hi i Hj = some O' ∧ HInv ds O' ∧ ∀ s t, IsCfg ds s → IsCfg ds t →
      opElt O' s t = opElt O s t + tensorOp ds.length
        (fun j => if j = i then Hi else if j = i + 1 then Hj else eye (ds.getD j 0)) s t := by
  have hlen := hO.length
  obtain ⟨dl, dr, e1, e2, e3, e4, e5⟩ := hO.site_dims (k := i) (by omega)
  obtain ⟨dl', dr', f1, f2, f3, f4, f5⟩ := hO.site_dims (k := i + 1) hi
  -- neighbouring bonds agree
  have hbond : dl' = dr := by
    have key : ∀ {D b : Nat} {O : List (Tensor R)} {ds : List Nat}, WFO D O ds b → ∀ {i dl d dr dl' d' dr'},
        i + 1 < O.length → (site O i).dims = [dl, d, d, dr] → (site O (i + 1)).dims = [dl', d', d', dr'] →
        dl' = dr := by
      intro D b O ds h
      induction h with
      | nil => intro i _ _ _ _ _ _ h; simp at h
      | @cons a d c b A As ds g1 _ _ _ hW ih =>
        intro i dl d dr dl' d' dr' hi h1 h2
        cases i with
        | zero =>
          cases hW with
          | nil => simp at hi
          | cons k1 _ _ _ _ =>
            simp only [site_cons_zero, site_cons_succ] at h1 h2
            rw [g1] at h1; rw [k1] at h2
            simp at h1 h2; omega
        | succ i => exact ih (by simpa using hi) h1 h2
    obtain ⟨_, D, hW⟩ := hO.isMPO
    exact key hW (by omega) e1 f1
  subst hbond
  have d1 : (site O i).dim 1 = ds.getD i 0 := by simp [dim, e1]
  have d3 : (site O i).dim 3 = dl' := by simp [dim, e1]
  have g1 : (site O (i + 1)).dim 1 = ds.getD (i + 1) 0 := by simp [dim, f1]
  have h10 : Hi.dim 0 = ds.getD i 0 := by simp [dim, h1]
  have h11 : Hi.dim 1 = ds.getD i 0 := by simp [dim, h1]
  have h20 : Hj.dim 0 = ds.getD (i + 1) 0 := by simp [dim, h2]
  have h21 : Hj.dim 1 = ds.getD (i + 1) 0 := by simp [dim, h2]
  have c3 := changeDim3 (n := dl' + 1) e1
  have c0 := changeDim0 (n := dl' + 1) f1
  have c3d : (changeDim (site O i) 3 (dl' + 1)).dim 1 = ds.getD i 0 := by simp [dim, c3.1]
  have c0d : (changeDim (site O (i + 1)) 0 (dl' + 1)).dim 1 = ds.getD (i + 1) 0 := by simp [dim, c0.1]
  set cl := if i + 2 = O.length then 0 else 1 with hcl
  set Pi := setSlice (changeDim (site O i) 3 (dl' + 1)) 0 dl' Hi with hPi
  set Pj := setSlice (changeDim (site O (i + 1)) 0 (dl' + 1)) dl' cl Hj with hPj
  have heq : addInteraction O Hi i Hj = some ((O.set i Pi).set (i + 1) Pj) := by
    unfold addInteraction
    rw [if_neg (by omega), if_neg (by omega), if_neg (by rw [h10, h11]; simp), if_neg (by rw [h20, h21]; simp)]
    simp only [Int.toNat_natCast, d3, c3d, c0d, h10, h20, ne_eq, not_true_eq_false, if_false,
      Nat.add_sub_cancel]
    rw [hPi, hPj, hcl]
    split <;> rfl
  have := add_chan_gen (O' := (O.set i Pi).set (i + 1) Pj) (st := i) (en := i + 2)
    (X := fun j x y => if j = i then Hi.get [x, y] else 0)
    (Y := fun j x y => if j = i + 1 then Hj.get [x, y] else 0) (S := fun _ _ _ => 0) hO (by omega) (by simp) ?_
  · refine ⟨_, heq, this.1, fun s t hs ht => ?_⟩
    rw [this.2 s t hs ht]
    congr 1
    rw [Finset.sum_eq_sum_Ico_succ_bot (by omega), Finset.sum_eq_sum_Ico_succ_bot (by omega)]
    simp only [Nat.Ico_succ_singleton, Finset.sum_singleton, Finset.Ico_self, Finset.sum_empty, add_zero]
    exact prodFrom_tensorOp hs ht fun j x y hj => by
      simp only [strOp]
      by_cases hji : j = i
      · simp [hji]
      · by_cases hji1 : j = i + 1
        · simp [hji1]
        · rw [if_neg hji, if_neg hji1, if_neg (show ¬ (i < j ∧ j < i + 1) by omega), if_neg hji, if_neg hji1, eye_get]
  · intro j hj
    by_cases hji : j = i
    · subst hji
      rw [siteO_set_ne (by omega), siteO_set_self (by omega), d1, d3, show (site O j).dim 0 = dl by simp [dim, e1]]
      rw [show decide (j < j ∧ j < j + 2) = false by simp, show decide (j < j + 1 ∧ j + 1 < j + 2) = true by simp]
      refine ⟨by rw [hPi]; simpa using c3.1, fun a x y b ha hb hx hy => ?_, fun _ a x y ha hx hy => ?_, by simp,
        by simp⟩
      · rw [hPi, setSlice_get, if_neg (by omega), c3.2, if_pos hb]; simp
      · rw [hPi, setSlice_get, c3.2]
        by_cases ha0 : a = 0
        · subst ha0; simp
        · rw [if_neg (by omega), if_neg (by omega), if_neg ha0]
    · by_cases hji1 : j = i + 1
      · subst hji1
        rw [siteO_set_self (by simp; omega), g1, show (site O (i + 1)).dim 0 = dl' by simp [dim, f1],
          show (site O (i + 1)).dim 3 = dr' by simp [dim, f1]]
        rw [show decide (i < i + 1 ∧ i + 1 < i + 2) = true by simp,
          show decide (i < i + 1 + 1 ∧ i + 1 + 1 < i + 2) = false by simp]
        refine ⟨by rw [hPj]; simpa using c0.1, fun a x y b ha hb hx hy => ?_, by simp, fun _ x y b hb hx hy => ?_,
          by simp⟩
        · rw [hPj, setSlice_get, if_neg (by omega), c0.2, if_pos ha]; simp
        · rw [hPj, setSlice_get, c0.2]
          rw [hcl]
          by_cases hb0 : b = if i + 2 = O.length then 0 else 1
          · rw [if_pos ⟨rfl, hb0⟩, if_pos hb0]; simp
          · rw [if_neg (fun h => hb0 h.2), if_neg hb0, if_neg (by omega)]
      · rw [siteO_set_ne (by omega), siteO_set_ne (by omega)]
        obtain ⟨dl2, dr2, k1, _⟩ := hO.site_dims (k := j) (by omega)
        rw [show (site O j).dim 0 = dl2 by simp [dim, k1], show (site O j).dim 1 = ds.getD j 0 by simp [dim, k1],
          show (site O j).dim 3 = dr2 by simp [dim, k1]]
        rw [show decide (i < j ∧ j < i + 2) = false by simp; omega,
          show decide (i < j + 1 ∧ j + 1 < i + 2) = false by simp; omega]
        exact ChanT.refl k1 (by simp)

end MPS
