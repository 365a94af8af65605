import Verif.TensorLemmas
import Verif.MPOModel

set_option linter.unusedSectionVars false
set_option linter.unusedSimpArgs false

/-!
# Helper lemmas: the finite-automaton form of the MPOs made by the building functions

Bond state 0 = "nothing applied yet", 1 = "only identities from here on", ≥ 2 = channels.
-/

namespace MPS
open Tensor
variable {R : Type} [CommRing R]

theorem site_cons_zero (A : Tensor R) (As : List (Tensor R)) : site (A :: As) 0 = A := rfl
theorem site_cons_succ (A : Tensor R) (As : List (Tensor R)) (j : Nat) :
    site (A :: As) (j + 1) = site As j := by simp [site]

/-- Kronecker delta -/
def dlt (x y : Nat) : R := if x = y then 1 else 0

/-- matrix element of the identity on a piece of chain -/
def idP : List Nat → List Nat → R
  | [], [] => 1
  | x :: s, y :: t => dlt x y * idP s t
  | _, _ => 0

/-- sites `1 … L-1` of an MPO in automaton form, with left bond `D` -/
inductive HSuf : Nat → List (Tensor R) → List Nat → Prop
  | last {D d : Nat} {P : Tensor R} : P.dims = [D, d, d, 1] → 2 ≤ D → 0 < d →
      (∀ x y, x < d → y < d → P.get [1, x, y, 0] = dlt x y) → HSuf D [P] [d]
  | mid {D d D' : Nat} {P : Tensor R} {Ps : List (Tensor R)} {ds : List Nat} :
      P.dims = [D, d, d, D'] → 2 ≤ D → 2 ≤ D' → 0 < d →
      (∀ x y c, x < d → y < d → c < D' → P.get [1, x, y, c] = if c = 1 then dlt x y else 0) →
      (∀ x y a, x < d → y < d → a < D → P.get [a, x, y, 0] = if a = 0 then dlt x y else 0) →
      HSuf D' Ps ds → HSuf D (P :: Ps) (d :: ds)

/-- the whole MPO in automaton form -/
def HInv (ds : List Nat) (O : List (Tensor R)) : Prop :=
  ∃ (P : Tensor R) (Ps : List (Tensor R)) (d : Nat) (ds' : List Nat) (D' : Nat),
    O = P :: Ps ∧ ds = d :: ds' ∧ P.dims = [1, d, d, D'] ∧ 0 < d ∧
    (∀ x y, x < d → y < d → P.get [0, x, y, 0] = dlt x y) ∧ HSuf D' Ps ds'

theorem HSuf.ge_two {D : Nat} {O : List (Tensor R)} {ds : List Nat} (h : HSuf D O ds) : 2 ≤ D := by
  cases h <;> assumption

theorem HSuf.ne_nil {D : Nat} {O : List (Tensor R)} {ds : List Nat} (h : HSuf D O ds) : O ≠ [] := by
  cases h <;> simp

theorem HSuf.length {D : Nat} {O : List (Tensor R)} {ds : List Nat} (h : HSuf D O ds) :
    O.length = ds.length := by
  induction h with
  | last => rfl
  | mid _ _ _ _ _ _ _ ih => simp [ih]

theorem HInv.length {O : List (Tensor R)} {ds : List Nat} (h : HInv ds O) : O.length = ds.length := by
  obtain ⟨P, Ps, d, ds', D', rfl, rfl, _, _, _, hs⟩ := h
  simp [hs.length]

theorem HInv.two_le {O : List (Tensor R)} {ds : List Nat} (h : HInv ds O) : 2 ≤ O.length := by
  obtain ⟨P, Ps, d, ds', D', rfl, rfl, _, _, _, hs⟩ := h
  have := hs.ne_nil
  have : Ps.length ≠ 0 := by simpa using this
  simp; omega

theorem HSuf.wfo {D : Nat} {O : List (Tensor R)} {ds : List Nat} (h : HSuf D O ds) : WFO D O ds 1 := by
  induction h with
  | last h1 h2 h3 _ => exact WFO.cons h1 (by omega) h3 (by omega) (WFO.nil 1)
  | mid h1 h2 h2' h3 _ _ _ ih => exact WFO.cons h1 (by omega) h3 (by omega) ih

theorem HInv.isMPO {O : List (Tensor R)} {ds : List Nat} (h : HInv ds O) : IsMPO ds O := by
  obtain ⟨P, Ps, d, ds', D', rfl, rfl, h1, h2, _, hs⟩ := h
  exact ⟨by simp, 1, WFO.cons h1 (by omega) h2 (by have := hs.ge_two; omega) hs.wfo⟩

/-- dimensions of the tensor at each site -/
theorem HInv.site_dims {O : List (Tensor R)} {ds : List Nat} (h : HInv ds O) {k : Nat}
    (hk : k < ds.length) : ∃ dl dr, (site O k).dims = [dl, ds.getD k 0, ds.getD k 0, dr] ∧
      (k = 0 → dl = 1) ∧ (0 < k → 2 ≤ dl) ∧ (k + 1 = ds.length → dr = 1) ∧ (k + 1 < ds.length → 2 ≤ dr) := by
  obtain ⟨P, Ps, d, ds', D', rfl, rfl, h1, h2, _, hs⟩ := h
  have hl := hs.length
  have hne := hs.ne_nil
  have hne' : ds'.length ≠ 0 := by rw [← hl]; simpa using hne
  cases k with
  | zero =>
    refine ⟨1, D', by simpa [site] using h1, by simp, by simp, ?_, ?_⟩
    · intro h; simp at h; exact absurd h (by simpa using hne')
    · intro _; exact hs.ge_two
  | succ k =>
    have key : ∀ {D : Nat} {O : List (Tensor R)} {ds : List Nat}, HSuf D O ds → ∀ {k}, k < ds.length →
        ∃ dl dr, (site O k).dims = [dl, ds.getD k 0, ds.getD k 0, dr] ∧ 2 ≤ dl ∧
          (k + 1 = ds.length → dr = 1) ∧ (k + 1 < ds.length → 2 ≤ dr) := by
      intro D O ds h
      induction h with
      | last h1 h2 h3 _ =>
        intro k hk
        obtain rfl : k = 0 := by simpa using hk
        exact ⟨_, _, by simpa [site] using h1, h2, by simp, by simp⟩
      | @mid _ _ _ _ _ ds h1 h2 h2' h3 _ _ hsuf ih =>
        intro k hk
        cases k with
        | zero =>
          refine ⟨_, _, by simpa [site] using h1, h2, ?_, fun _ => h2'⟩
          intro h
          have := hsuf.ne_nil
          have hl := hsuf.length
          simp at h
          subst h
          exact absurd (List.length_eq_zero_iff.1 hl) this
        | succ k =>
          obtain ⟨dl, dr, e1, e2, e3, e4⟩ := ih (k := k) (by simpa using hk)
          exact ⟨dl, dr, by simpa [site] using e1, e2, by simpa using e3, by simpa using e4⟩
    obtain ⟨dl, dr, e1, e2, e3, e4⟩ := key hs (k := k) (by simpa using hk)
    exact ⟨dl, dr, by simpa [site] using e1, by simp, fun _ => e2, by simpa using e3, by simpa using e4⟩

theorem opPath_cons (A : Tensor R) (As : List (Tensor R)) (i j : Nat) (s t : List Nat) (a b : Nat) :
    opPath (A :: As) (i :: s) (j :: t) a b
      = ∑ c ∈ Finset.range (A.dim 3), A.get [a, i, j, c] * opPath As s t c b := rfl

theorem opPath_nil (a b : Nat) : opPath ([] : List (Tensor R)) [] [] a b = if a = b then 1 else 0 := rfl

theorem dim3_of {A : Tensor R} {a d e c : Nat} (h : A.dims = [a, d, e, c]) : A.dim 3 = c := by
  simp [dim, h]

/-- from bond state 1 only the identity is reachable -/
theorem HSuf.path_one {D : Nat} {O : List (Tensor R)} {ds : List Nat} (h : HSuf D O ds) {s t : List Nat}
    (hs : IsCfg ds s) (ht : IsCfg ds t) : opPath O s t 1 0 = idP s t := by
  induction h generalizing s t with
  | last h1 h2 h3 h4 =>
    cases hs with
    | cons hx hs => cases hs with
      | nil => cases ht with
        | cons hy ht => cases ht with
          | nil =>
            rw [opPath_cons, dim3_of h1, Finset.sum_range_one, h4 _ _ hx hy, opPath_nil]
            simp [idP]
  | @mid D d D' P Ps ds h1 h2 h2' h3 h4 h5 h6 ih =>
    cases hs with
    | @cons x _ s _ hx hs => cases ht with
      | @cons y _ t _ hy ht =>
        rw [opPath_cons, dim3_of h1]
        have : ∀ c ∈ Finset.range D', P.get [1, x, y, c] * opPath Ps s t c 0
            = if c = 1 then dlt x y * opPath Ps s t 1 0 else 0 := by
          intro c hc
          rw [h4 _ _ _ hx hy (Finset.mem_range.1 hc)]
          split
          · next h => subst h; rfl
          · ring
        rw [Finset.sum_congr rfl this, Finset.sum_ite_eq', if_pos (Finset.mem_range.2 (by omega)),
          ih hs ht, idP]

section chan
variable (op : Nat → Bool) (X Y S Z : Nat → Nat → Nat → R)

/-- sum of all ways of closing an open channel from site `k` on -/
def chC : Nat → List Nat → List Nat → R
  | k, x :: s, y :: t => Y k x y * idP s t + if op (k + 1) then S k x y * chC (k + 1) s t else 0
  | _, _, _ => 0

/-- sum of all ways of opening and closing a channel, or using a local term, from site `k` on -/
def chT : Nat → List Nat → List Nat → R
  | k, x :: s, y :: t => dlt x y * chT (k + 1) s t
      + (if op (k + 1) then X k x y * chC op Y S (k + 1) s t else 0) + Z k x y * idP s t
  | _, _, _ => 0
end chan

/-- `P'` is `P` with a local term `Z` added and (if `l`, `r`) one more bond state on the left / right: `X` opens,
`Y` closes, `S` continues the channel. -/
structure ChanT (l r : Bool) (cl : Nat) (X Y S Z : Nat → Nat → R) (P P' : Tensor R) (dl d dr : Nat) : Prop where
  dims : P'.dims = [dl + l.toNat, d, d, dr + r.toNat]
  old : ∀ a x y b, a < dl → b < dr → x < d → y < d →
    P'.get [a, x, y, b] = P.get [a, x, y, b] + if a = 0 ∧ b = cl then Z x y else 0
  right : r = true → ∀ a x y, a < dl → x < d → y < d → P'.get [a, x, y, dr] = if a = 0 then X x y else 0
  left : l = true → ∀ x y b, b < dr → x < d → y < d → P'.get [dl, x, y, b] = if b = cl then Y x y else 0
  both : l = true → r = true → ∀ x y, x < d → y < d → P'.get [dl, x, y, dr] = S x y

section chan2
variable {op : Nat → Bool} {X Y S Z : Nat → Nat → Nat → R}

theorem sum_succ_bool {D : Nat} {r : Bool} (f : Nat → R) :
    ∑ c ∈ Finset.range (D + r.toNat), f c = (∑ c ∈ Finset.range D, f c) + if r then f D else 0 := by
  cases r <;> simp [Finset.sum_range_succ]

theorem chan_suffix {D k : Nat} {O O' : List (Tensor R)} {ds : List Nat} (h : HSuf D O ds)
    (hlen : O'.length = O.length) (hend : op (k + O.length) = false)
    (hch : ∀ j, j < O.length → ChanT (op (k + j)) (op (k + j + 1)) (if j + 1 = O.length then 0 else 1)
      (X (k + j)) (Y (k + j)) (S (k + j)) (Z (k + j)) (site O j) (site O' j)
      ((site O j).dim 0) ((site O j).dim 1) ((site O j).dim 3)) :
    HSuf (D + (op k).toNat) O' ds ∧
    ∀ s t, IsCfg ds s → IsCfg ds t →
      (∀ a, a < D → opPath O' s t a 0 = opPath O s t a 0 + if a = 0 then chT op X Y S Z k s t else 0) ∧
      (op k = true → opPath O' s t D 0 = chC op Y S k s t) := by
  induction h generalizing k O' with
  | @last D d P h1 h2 h3 h4 =>
    obtain ⟨P', rfl⟩ : ∃ P', O' = [P'] := by
      match O', hlen with
      | [P'], _ => exact ⟨P', rfl⟩
    have hc := hch 0 (by simp)
    have e0 : P.dim 0 = D := by simp [dim, h1]
    have e1 : P.dim 1 = d := by simp [dim, h1]
    have e3 : P.dim 3 = 1 := by simp [dim, h1]
    simp only [List.length_singleton] at hend
    simp only [site_cons_zero, e0, e1, e3, Nat.add_zero, List.length_singleton, if_true, hend] at hc
    have hd' : P'.dims = [D + (op k).toNat, d, d, 1] := by simpa using hc.dims
    refine ⟨HSuf.last hd' (by omega) h3 (fun x y hx hy => ?_), fun s t hs ht => ?_⟩
    · rw [hc.old _ _ _ _ (by omega) (by omega) hx hy, h4 x y hx hy]; simp
    · cases hs with
      | @cons x _ s' _ hx hs => cases hs with
        | nil => cases ht with
          | @cons y _ t' _ hy ht => cases ht with
            | nil =>
              refine ⟨fun a ha => ?_, fun ho => ?_⟩
              · rw [opPath_cons, opPath_cons, dim3_of hd', dim3_of h1, Finset.sum_range_one,
                  Finset.sum_range_one, hc.old _ _ _ _ ha (by omega) hx hy]
                simp [opPath_nil, chT, hend, idP]
              · rw [opPath_cons, dim3_of hd', Finset.sum_range_one, hc.left ho _ _ _ (by omega) hx hy]
                simp [opPath_nil, chC, hend, idP]
  | @mid D d D' P Ps ds h1 h2 h2' h3 h4 h5 h6 ih =>
    obtain ⟨P', Ps', rfl⟩ : ∃ P' Ps', O' = P' :: Ps' := by
      match O', hlen with
      | P' :: Ps', _ => exact ⟨P', Ps', rfl⟩
    have hlen' : Ps'.length = Ps.length := by simpa using hlen
    have hne : Ps.length ≠ 0 := by simpa using h6.ne_nil
    have hc := hch 0 (by simp)
    have e0 : P.dim 0 = D := by simp [dim, h1]
    have e1 : P.dim 1 = d := by simp [dim, h1]
    have e3 : P.dim 3 = D' := by simp [dim, h1]
    have hl1 : ¬ (0 + 1 = (P :: Ps).length) := by rw [List.length_cons]; omega
    simp only [site_cons_zero, e0, e1, e3, Nat.add_zero, if_neg hl1] at hc
    have hih := ih (k := k + 1) (O' := Ps') hlen' (by rw [← hend]; congr 1; simp; omega) (fun j hj => by
      have := hch (j + 1) (by simpa using hj)
      simp only [site_cons_succ, List.length_cons, Nat.add_right_cancel_iff] at this
      have e : k + (j + 1) = k + 1 + j := by omega
      rw [e] at this
      exact this)
    obtain ⟨hsuf', hpath⟩ := hih
    refine ⟨HSuf.mid hc.dims (by omega) (by omega) h3 ?_ ?_ hsuf', fun s t hs ht => ?_⟩
    · intro x y c hx hy hcD
      by_cases hcc : c < D'
      · rw [hc.old _ _ _ _ (by omega) hcc hx hy, h4 x y c hx hy hcc]; simp
      · cases hr : op (k + 1) with
        | false => simp [hr] at hcD; omega
        | true =>
          have : c = D' := by simp [hr] at hcD; omega
          subst this
          rw [hc.right hr _ _ _ (by omega) hx hy, if_neg (by omega), if_neg (by omega)]
    · intro x y a hx hy ha
      by_cases haD : a < D
      · rw [hc.old _ _ _ _ haD (by omega) hx hy, h5 x y a hx hy haD]; simp
      · cases hl : op k with
        | false => simp [hl] at ha; omega
        | true =>
          have : a = D := by simp [hl] at ha; omega
          subst this
          rw [hc.left hl _ _ _ (by omega) hx hy, if_neg (by omega), if_neg (by omega)]
    · cases hs with
      | @cons x _ s _ hx hs => cases ht with
        | @cons y _ t _ hy ht =>
          obtain ⟨hp1, hp2⟩ := hpath s t hs ht
          have hone : opPath Ps' s t 1 0 = idP s t := hsuf'.path_one hs ht
          refine ⟨fun a ha => ?_, fun ho => ?_⟩
          · rw [opPath_cons, opPath_cons, dim3_of hc.dims, dim3_of h1, sum_succ_bool]
            have t1 : ∑ c ∈ Finset.range D', P'.get [a, x, y, c] * opPath Ps' s t c 0
                = (∑ c ∈ Finset.range D', P.get [a, x, y, c] * opPath Ps s t c 0)
                  + (if a = 0 then dlt x y * chT op X Y S Z (k + 1) s t else 0)
                  + (if a = 0 then Z k x y * idP s t else 0) := by
              have : ∀ c ∈ Finset.range D', P'.get [a, x, y, c] * opPath Ps' s t c 0
                  = P.get [a, x, y, c] * opPath Ps s t c 0
                    + (if c = 0 then P.get [a, x, y, 0] * chT op X Y S Z (k + 1) s t else 0)
                    + (if c = 1 then (if a = 0 then Z k x y * opPath Ps' s t 1 0 else 0) else 0) := by
                intro c hcD
                rw [Finset.mem_range] at hcD
                rw [hc.old _ _ _ _ ha hcD hx hy, add_mul]
                congr 1
                · rw [hp1 c hcD]
                  by_cases hc0 : c = 0
                  · subst hc0; simp; ring
                  · simp [hc0]
                · by_cases hc1 : c = 1
                  · subst hc1; simp
                  · simp [hc1]
              rw [Finset.sum_congr rfl this, Finset.sum_add_distrib, Finset.sum_add_distrib,
                Finset.sum_ite_eq', Finset.sum_ite_eq', if_pos (Finset.mem_range.2 (by omega)),
                if_pos (Finset.mem_range.2 (by omega)), hone, h5 x y a hx hy ha]
              by_cases ha0 : a = 0
              · simp [ha0]
              · simp [ha0]
            rw [t1]
            cases hr : op (k + 1) with
            | false =>
              by_cases ha0 : a = 0
              · simp [ha0, chT, hr]; ring
              · simp [ha0]
            | true =>
              simp only [if_true]
              rw [hc.right hr _ _ _ ha hx hy, hp2 hr]
              by_cases ha0 : a = 0
              · simp [ha0, chT, hr]; ring
              · simp [ha0]
          · rw [opPath_cons, dim3_of hc.dims, sum_succ_bool]
            have t1 : ∑ c ∈ Finset.range D', P'.get [D, x, y, c] * opPath Ps' s t c 0
                = Y k x y * idP s t := by
              have : ∀ c ∈ Finset.range D', P'.get [D, x, y, c] * opPath Ps' s t c 0
                  = if c = 1 then Y k x y * opPath Ps' s t 1 0 else 0 := by
                intro c hcD
                rw [Finset.mem_range] at hcD
                rw [hc.left ho _ _ _ hcD hx hy]
                split
                · next h => subst h; rfl
                · ring
              rw [Finset.sum_congr rfl this, Finset.sum_ite_eq', if_pos (Finset.mem_range.2 (by omega)),
                hone]
            rw [t1, chC]
            congr 1
            cases hr : op (k + 1) with
            | false => simp
            | true => simp only [if_true]; rw [hc.both ho hr _ _ hx hy, hp2 hr]

/-- the general addition lemma -/
theorem chan_add {O O' : List (Tensor R)} {ds : List Nat} (h : HInv ds O)
    (hlen : O'.length = O.length) (h0 : op 0 = false) (hend : op O.length = false)
    (hch : ∀ j, j < O.length → ChanT (op j) (op (j + 1)) (if j + 1 = O.length then 0 else 1)
      (X j) (Y j) (S j) (Z j) (site O j) (site O' j)
      ((site O j).dim 0) ((site O j).dim 1) ((site O j).dim 3)) :
    HInv ds O' ∧ ∀ s t, IsCfg ds s → IsCfg ds t →
      opElt O' s t = opElt O s t + chT op X Y S Z 0 s t := by
  obtain ⟨P, Ps, d, ds', D', rfl, rfl, h1, h2, h3, hs⟩ := h
  obtain ⟨P', Ps', rfl⟩ : ∃ P' Ps', O' = P' :: Ps' := by
    match O', hlen with
    | P' :: Ps', _ => exact ⟨P', Ps', rfl⟩
  have hne : Ps.length ≠ 0 := by simpa using hs.ne_nil
  have hlen' : Ps'.length = Ps.length := by simpa using hlen
  have hc := hch 0 (by simp)
  have e0 : P.dim 0 = 1 := by simp [dim, h1]
  have e1 : P.dim 1 = d := by simp [dim, h1]
  have e3 : P.dim 3 = D' := by simp [dim, h1]
  have hl1 : ¬ (0 + 1 = (P :: Ps).length) := by rw [List.length_cons]; omega
  simp only [site_cons_zero, e0, e1, e3, if_neg hl1, h0] at hc
  have hd' : P'.dims = [1, d, d, D' + (op 1).toNat] := by simpa using hc.dims
  have hD' := hs.ge_two
  have := chan_suffix (k := 1) (op := op) (X := X) (Y := Y) (S := S) (Z := Z) (O' := Ps') hs hlen'
    (by rw [← hend]; congr 1; simp; omega) (fun j hj => by
      have := hch (j + 1) (by simpa using hj)
      simp only [site_cons_succ, List.length_cons, Nat.add_right_cancel_iff] at this
      have e : 1 + j = j + 1 := by omega
      rw [e]
      exact this)
  obtain ⟨hsuf', hpath⟩ := this
  refine ⟨⟨P', Ps', d, ds', _, rfl, rfl, hd', h2, fun x y hx hy => ?_, hsuf'⟩, fun s t hs' ht' => ?_⟩
  · rw [hc.old _ _ _ _ (by omega) (by omega) hx hy, h3 x y hx hy]; simp
  · have ed : P'.dim 0 = 1 := by simp [dim, hd']
    simp only [opElt, List.headD_cons, e0, ed, Finset.sum_range_one]
    cases hs' with
    | @cons x _ s _ hx hs2 => cases ht' with
      | @cons y _ t _ hy ht =>
        obtain ⟨hp1, hp2⟩ := hpath s t hs2 ht
        have hone : opPath Ps' s t 1 0 = idP s t := hsuf'.path_one hs2 ht
        rw [opPath_cons, opPath_cons, dim3_of hd', dim3_of h1, sum_succ_bool]
        have t1 : ∑ c ∈ Finset.range D', P'.get [0, x, y, c] * opPath Ps' s t c 0
            = (∑ c ∈ Finset.range D', P.get [0, x, y, c] * opPath Ps s t c 0)
              + dlt x y * chT op X Y S Z 1 s t + Z 0 x y * idP s t := by
          have : ∀ c ∈ Finset.range D', P'.get [0, x, y, c] * opPath Ps' s t c 0
              = P.get [0, x, y, c] * opPath Ps s t c 0
                + (if c = 0 then P.get [0, x, y, 0] * chT op X Y S Z 1 s t else 0)
                + (if c = 1 then Z 0 x y * opPath Ps' s t 1 0 else 0) := by
            intro c hcD
            rw [Finset.mem_range] at hcD
            rw [hc.old _ _ _ _ (by omega) hcD hx hy, add_mul]
            congr 1
            · rw [hp1 c hcD]
              by_cases hc0 : c = 0
              · subst hc0; simp; ring
              · simp [hc0]
            · by_cases hc1 : c = 1
              · subst hc1; simp
              · simp [hc1]
          rw [Finset.sum_congr rfl this, Finset.sum_add_distrib, Finset.sum_add_distrib,
            Finset.sum_ite_eq', Finset.sum_ite_eq', if_pos (Finset.mem_range.2 (by omega)),
            if_pos (Finset.mem_range.2 (by omega)), hone, h3 x y hx hy]
        rw [t1]
        cases hr : op 1 with
        | false => simp [chT, hr]; ring
        | true =>
          simp only [if_true]
          rw [hc.right hr _ _ _ (by omega) hx hy, hp2 hr]
          simp [chT, hr]; ring

end chan2

/-! ### closed forms of the channel sums -/

/-- matrix element of a tensor product of one-site operators `f k`, from site `k` on -/
def prodFrom (f : Nat → Nat → Nat → R) : Nat → List Nat → List Nat → R
  | _, [], [] => 1
  | k, x :: s, y :: t => f k x y * prodFrom f (k + 1) s t
  | _, _, _ => 0

theorem prodFrom_congr {f g : Nat → Nat → Nat → R} {k : Nat} {s t : List Nat}
    (h : ∀ j x y, k ≤ j → j < k + s.length → f j x y = g j x y) : prodFrom f k s t = prodFrom g k s t := by
  induction s generalizing k t with
  | nil => cases t <;> rfl
  | cons x s ih =>
    cases t with
    | nil => rfl
    | cons y t =>
      rw [prodFrom, prodFrom, h k x y (le_refl _) (by simp), ih (k := k + 1) (t := t)]
      intro j x' y' hj hj'
      exact h j x' y' (by omega) (by simp at hj' ⊢; omega)

theorem prodFrom_id (k : Nat) (s t : List Nat) : prodFrom (fun _ => dlt) k s t = (idP s t : R) := by
  induction s generalizing k t with
  | nil => cases t <;> rfl
  | cons x s ih =>
    cases t with
    | nil => rfl
    | cons y t => rw [prodFrom, idP, ih]

theorem prodFrom_eq_prod (f : Nat → Nat → Nat → R) (k : Nat) (s t : List Nat) (h : s.length = t.length) :
    prodFrom f k s t = ∏ j ∈ Finset.range s.length, f (k + j) (s.getD j 0) (t.getD j 0) := by
  induction s generalizing k t with
  | nil => cases t with
    | nil => simp [prodFrom]
    | cons _ _ => simp at h
  | cons x s ih =>
    cases t with
    | nil => simp at h
    | cons y t =>
      rw [prodFrom, ih _ _ (by simpa using h), List.length_cons, Finset.prod_range_succ', mul_comm]
      congr 1
      refine Finset.prod_congr rfl fun j _ => ?_
      simp only [List.getD_cons_succ]
      congr 1; omega

/-- operator string: identities before `a`, `X` at `a`, `S` strictly between, `Y` at `b`, identities after -/
def strOp (X Y S : Nat → Nat → Nat → R) (a b : Nat) : Nat → Nat → Nat → R :=
  fun k => if k = a then X k else if k = b then Y k else if a < k ∧ k < b then S k else dlt

/-- one-site operator at `a`, identities elsewhere -/
def oneOp (Z : Nat → Nat → Nat → R) (a : Nat) : Nat → Nat → Nat → R :=
  fun k => if k = a then Z k else dlt

section closed
variable {op : Nat → Bool} {X Y S Z : Nat → Nat → Nat → R}

/-- closing part: `S` before `b`, `Y` at `b`, identities after -/
def closeOp (Y S : Nat → Nat → Nat → R) (b : Nat) : Nat → Nat → Nat → R :=
  fun k => if k = b then Y k else if k < b then S k else dlt

theorem chC_closed {st en : Nat} (hop : ∀ k, op k = decide (st < k ∧ k < en)) (k : Nat) (hk : st < k)
    (hk' : k < en) (s t : List Nat) (hl : s.length = t.length) (hen : en ≤ k + s.length) :
    chC op Y S k s t = ∑ b ∈ Finset.Ico k en, prodFrom (closeOp Y S b) k s t := by
  induction s generalizing k t with
  | nil => simp at hen; omega
  | cons x s ih =>
    cases t with
    | nil => simp at hl
    | cons y t =>
      rw [chC, Finset.sum_eq_sum_Ico_succ_bot hk']
      congr 1
      · rw [prodFrom, show closeOp Y S k k x y = Y k x y by simp [closeOp]]
        congr 1
        rw [← prodFrom_id (k + 1)]
        refine prodFrom_congr fun j x y hj _ => ?_
        simp [closeOp, show j ≠ k by omega, show ¬ j < k by omega]
      · rw [hop (k + 1)]
        by_cases h1 : k + 1 < en
        · rw [ih (k + 1) (by omega) h1 t (by simpa using hl) (by simp at hen; omega)]
          simp only [show st < k + 1 by omega, h1, and_self, decide_true, if_true]
          rw [Finset.mul_sum]
          refine Finset.sum_congr rfl fun b hb => ?_
          rw [Finset.mem_Ico] at hb
          rw [prodFrom]
          congr 1
          simp [closeOp, show k ≠ b by omega, show k < b by omega]
        · simp [h1, Finset.Ico_eq_empty_of_le (show en ≤ k + 1 by omega)]

theorem chT_closed {st en : Nat} (hop : ∀ k, op k = decide (st < k ∧ k < en)) (k : Nat)
    (s t : List Nat) (hl : s.length = t.length) (hen : en ≤ k + s.length) :
    chT op X Y S Z k s t = (∑ a ∈ Finset.Ico (max k st) en, ∑ b ∈ Finset.Ico (a + 1) en,
        prodFrom (strOp X Y S a b) k s t)
      + ∑ a ∈ Finset.Ico k (k + s.length), prodFrom (oneOp Z a) k s t := by
  induction s generalizing k t with
  | nil =>
    simp at hen
    simp [chT, Finset.Ico_eq_empty_of_le (show en ≤ max k st by omega)]
  | cons x s ih =>
    cases t with
    | nil => simp at hl
    | cons y t =>
      rw [chT, ih (k + 1) t (by simpa using hl) (by simp at hen; omega)]
      have hZ : ∑ a ∈ Finset.Ico k (k + (x :: s).length), prodFrom (oneOp Z a) k (x :: s) (y :: t)
          = Z k x y * idP s t + dlt x y *
            ∑ a ∈ Finset.Ico (k + 1) (k + 1 + s.length), prodFrom (oneOp Z a) (k + 1) s t := by
        rw [Finset.sum_eq_sum_Ico_succ_bot (by simp), Finset.mul_sum]
        congr 1
        · rw [prodFrom, show oneOp Z k k x y = Z k x y by simp [oneOp]]
          congr 1
          rw [← prodFrom_id (k + 1)]
          refine prodFrom_congr fun j x y hj _ => ?_
          simp [oneOp, show j ≠ k by omega]
        · have e : k + (x :: s).length = k + 1 + s.length := by simp; omega
          rw [e]
          refine Finset.sum_congr rfl fun a ha => ?_
          rw [Finset.mem_Ico] at ha
          rw [prodFrom]
          simp [oneOp, show k ≠ a by omega]
      have hstep : ∀ a, k < a → ∑ b ∈ Finset.Ico (a + 1) en, prodFrom (strOp X Y S a b) k (x :: s) (y :: t)
          = dlt x y * ∑ b ∈ Finset.Ico (a + 1) en, prodFrom (strOp X Y S a b) (k + 1) s t := by
        intro a ha
        rw [Finset.mul_sum]
        refine Finset.sum_congr rfl fun b hb => ?_
        rw [Finset.mem_Ico] at hb
        rw [prodFrom]
        simp [strOp, show k ≠ a by omega, show k ≠ b by omega, show ¬ a < k by omega]
      have hA : ∑ a ∈ Finset.Ico (max k st) en, ∑ b ∈ Finset.Ico (a + 1) en,
            prodFrom (strOp X Y S a b) k (x :: s) (y :: t)
          = (if op (k + 1) then X k x y * chC op Y S (k + 1) s t else 0) + dlt x y *
            ∑ a ∈ Finset.Ico (max (k + 1) st) en, ∑ b ∈ Finset.Ico (a + 1) en,
              prodFrom (strOp X Y S a b) (k + 1) s t := by
        rw [hop (k + 1), Finset.mul_sum]
        by_cases h1 : st < k + 1
        · by_cases h2 : k + 1 < en
          · rw [show max k st = k by omega, show max (k + 1) st = k + 1 by omega,
              Finset.sum_eq_sum_Ico_succ_bot (by omega)]
            congr 1
            · simp only [h1, h2, and_self, decide_true, if_true]
              rw [chC_closed hop (k + 1) h1 h2 s t (by simpa using hl) (by simp at hen; omega),
                Finset.mul_sum]
              refine Finset.sum_congr rfl fun b hb => ?_
              rw [Finset.mem_Ico] at hb
              rw [prodFrom, show strOp X Y S k b k x y = X k x y by simp [strOp]]
              congr 1
              refine prodFrom_congr fun j x y hj _ => ?_
              simp only [strOp, closeOp, if_neg (show ¬ j = k by omega), show k < j by omega, true_and]
            · refine Finset.sum_congr rfl fun a ha => ?_
              rw [Finset.mem_Ico] at ha
              exact hstep a (by omega)
          · have e1 : ∀ a ∈ Finset.Ico (max k st) en, ∑ b ∈ Finset.Ico (a + 1) en,
                prodFrom (strOp X Y S a b) k (x :: s) (y :: t) = 0 := by
              intro a ha
              rw [Finset.mem_Ico] at ha
              rw [Finset.Ico_eq_empty_of_le (by omega), Finset.sum_empty]
            rw [Finset.sum_eq_zero e1, Finset.Ico_eq_empty_of_le (show en ≤ max (k + 1) st by omega)]
            simp [h2]
        · rw [show max k st = st by omega, show max (k + 1) st = st by omega]
          simp only [h1, false_and, decide_false, Bool.false_eq_true, if_false, zero_add]
          refine Finset.sum_congr rfl fun a ha => ?_
          rw [Finset.mem_Ico] at ha
          exact hstep a (by omega)
      rw [hA, hZ]
      ring

end closed
end MPS
