import Verif.FormModel
import Verif.FormSpec
import Verif.MPSLemmas
import Verif.MPSLemmas2

set_option linter.unusedSectionVars false
set_option linter.unusedSimpArgs false

/-! # Helper lemmas for linear forms -/

namespace MPS.Form
open MPS Tensor
variable {R : Type} [CommRing R] [StarRing R]

theorem amp_open {ψ : List (Tensor R)} {ds : List Nat} {b : Nat} (h : WF 1 ψ ds b) (hne : ψ ≠ []) (s : List Nat) :
    amp ψ s = path ψ s 0 0 := by
  rw [amp_of_WF h hne]; simp

/-- scalar product of two chains, split in three blocks -/
theorem inner_blocks {Ql Qm Qr Pl Pm Pr : List (Tensor R)} {dl dm dr : List Nat} {a b a' b' : Nat} {ML MR : Tensor R}
    (hL : IsTransfer ML Ql Pl dl 1 1 a b) (hR : IsTransfer MR Qr Pr dr a' b' 1 1)
    (q1 : WF 1 Ql dl a) (q2 : WF a Qm dm a') (q3 : WF a' Qr dr 1)
    (p1 : WF 1 Pl dl b) (p2 : WF b Pm dm b') (p3 : WF b' Pr dr 1) (hne : dm ≠ []) :
    MPS.inner (dl ++ (dm ++ dr)) (amp (Ql ++ (Qm ++ Qr))) (amp (Pl ++ (Pm ++ Pr))) =
      ∑ x ∈ Finset.range a, ∑ y ∈ Finset.range b, ∑ x' ∈ Finset.range a', ∑ y' ∈ Finset.range b',
        ML.get [0, 0, x, y] * sumCfg dm (fun s => star (path Qm s x x') * path Pm s y y') * MR.get [x', y', 0, 0] := by
  have nq : Ql ++ (Qm ++ Qr) ≠ [] := by
    intro h
    have : Qm = [] := by simp at h; exact h.2.1
    rw [this] at q2; cases q2; exact hne rfl
  have np : Pl ++ (Pm ++ Pr) ≠ [] := by
    intro h
    have : Pm = [] := by simp at h; exact h.2.1
    rw [this] at p2; cases p2; exact hne rfl
  unfold MPS.inner
  rw [sumCfg_append]
  have e1 : ∀ s, IsCfg dl s → ∀ t, IsCfg dm t → ∀ u, IsCfg dr u →
      star (amp (Ql ++ (Qm ++ Qr)) (s ++ (t ++ u))) * amp (Pl ++ (Pm ++ Pr)) (s ++ (t ++ u)) =
      ∑ x ∈ Finset.range a, ∑ y ∈ Finset.range b, ∑ x' ∈ Finset.range a', ∑ y' ∈ Finset.range b',
        (star (path Ql s 0 x) * path Pl s 0 y) * (star (path Qm t x x') * path Pm t y y') * (star (path Qr u x' 0) * path Pr u y' 0) := by
    intro s hs t ht u hu
    rw [amp_open (q1.append (q2.append q3)) nq, amp_open (p1.append (p2.append p3)) np,
      path_append q1 (by rw [hs.length, q1.length]) (by omega), path_append p1 (by rw [hs.length, p1.length]) (by omega)]
    rw [star_sum, Finset.sum_mul_sum]
    refine Finset.sum_congr rfl fun x hx => Finset.sum_congr rfl fun y hy => ?_
    rw [path_append q2 (by rw [ht.length, q2.length]) (Finset.mem_range.1 hx),
      path_append p2 (by rw [ht.length, p2.length]) (Finset.mem_range.1 hy)]
    rw [star_mul', star_sum, mul_mul_mul_comm, Finset.sum_mul_sum, Finset.mul_sum]
    refine Finset.sum_congr rfl fun x' _ => ?_
    rw [Finset.mul_sum]
    refine Finset.sum_congr rfl fun y' _ => ?_
    rw [star_mul']
    ring
  have e2 : ∀ s, IsCfg dl s → sumCfg (dm ++ dr) (fun t => star (amp (Ql ++ (Qm ++ Qr)) (s ++ t)) * amp (Pl ++ (Pm ++ Pr)) (s ++ t)) =
      ∑ x ∈ Finset.range a, ∑ y ∈ Finset.range b, ∑ x' ∈ Finset.range a', ∑ y' ∈ Finset.range b',
        (star (path Ql s 0 x) * path Pl s 0 y) * sumCfg dm (fun s => star (path Qm s x x') * path Pm s y y') * MR.get [x', y', 0, 0] := by
    intro s hs
    rw [sumCfg_append]
    have e3 : ∀ t, IsCfg dm t → sumCfg dr (fun u => star (amp (Ql ++ (Qm ++ Qr)) (s ++ (t ++ u))) * amp (Pl ++ (Pm ++ Pr)) (s ++ (t ++ u))) =
        ∑ x ∈ Finset.range a, ∑ y ∈ Finset.range b, ∑ x' ∈ Finset.range a', ∑ y' ∈ Finset.range b',
        (star (path Ql s 0 x) * path Pl s 0 y) * (star (path Qm t x x') * path Pm t y y') * MR.get [x', y', 0, 0] := by
      intro t ht
      rw [sumCfg_congr fun u hu => e1 s hs t ht u hu]
      simp only [sumCfg_sum, sumCfg_mul_left]
      refine Finset.sum_congr rfl fun x _ => Finset.sum_congr rfl fun y _ => Finset.sum_congr rfl fun x' hx' =>
        Finset.sum_congr rfl fun y' hy' => ?_
      rw [hR.2 x' y' 0 0 (Finset.mem_range.1 hx') (Finset.mem_range.1 hy') (by omega) (by omega)]
    rw [sumCfg_congr e3]
    simp only [sumCfg_sum, sumCfg_mul_left, sumCfg_mul_right]
  rw [sumCfg_congr e2]
  simp only [sumCfg_sum, sumCfg_mul_right]
  refine Finset.sum_congr rfl fun x hx => Finset.sum_congr rfl fun y hy => Finset.sum_congr rfl fun x' hx' =>
    Finset.sum_congr rfl fun y' hy' => ?_
  rw [hL.2 0 0 x y (by omega) (by omega) (Finset.mem_range.1 hx) (Finset.mem_range.1 hy)]

/-- the matrix used instead of an empty one -/
def envT (M : Tensor R) : Tensor R := if M.isEmpty then ones4 else M

/-- `M` caches the left part of the chain -/
def LeftOk (M : Tensor R) (Q P : List (Tensor R)) (ds : List Nat) : Prop :=
  (ds = [] ∧ M = Tensor.empty) ∨ (ds ≠ [] ∧ ∀ a b, WF 1 Q ds a → WF 1 P ds b → IsTransfer M Q P ds 1 1 a b)

/-- `M` caches the right part of the chain -/
def RightOk (M : Tensor R) (Q P : List (Tensor R)) (ds : List Nat) : Prop :=
  (ds = [] ∧ M = Tensor.empty) ∨ (ds ≠ [] ∧ ∀ a b, WF a Q ds 1 → WF b P ds 1 → IsTransfer M Q P ds a b 1 1)

theorem WF.nil_iff {a b : Nat} {P : List (Tensor R)} (h : WF a P [] b) : P = [] ∧ a = b := by
  cases h; exact ⟨rfl, rfl⟩

theorem WF.pos_left {a b : Nat} {P : List (Tensor R)} {ds : List Nat} (h : WF a P ds b) (hb : 0 < b) : 0 < a := by
  cases h with
  | nil => exact hb
  | cons _ h _ _ _ => exact h

theorem isTransfer_ones : IsTransfer (ones4 : Tensor R) [] [] [] 1 1 1 1 := by
  refine ⟨rfl, fun x y x' y' hx hy hx' hy' => ?_⟩
  obtain rfl : x = 0 := by omega
  obtain rfl : y = 0 := by omega
  obtain rfl : x' = 0 := by omega
  obtain rfl : y' = 0 := by omega
  simp [ones4, path]

theorem LeftOk.env {M : Tensor R} {Q P : List (Tensor R)} {ds : List Nat} (h : LeftOk M Q P ds) {a b : Nat}
    (hQ : WF 1 Q ds a) (hP : WF 1 P ds b) : IsTransfer (envT M) Q P ds 1 1 a b := by
  rcases h with ⟨rfl, rfl⟩ | ⟨_, h⟩
  · obtain ⟨rfl, rfl⟩ := WF.nil_iff hQ
    obtain ⟨rfl, rfl⟩ := WF.nil_iff hP
    unfold envT; rw [empty_isEmpty, if_pos rfl]; exact isTransfer_ones
  · have := h a b hQ hP
    unfold envT
    rw [this.notEmpty (by omega) (by omega) (hQ.pos_right (by omega)) (hP.pos_right (by omega)), if_neg (by simp)]
    exact this

theorem RightOk.env {M : Tensor R} {Q P : List (Tensor R)} {ds : List Nat} (h : RightOk M Q P ds) {a b : Nat}
    (hQ : WF a Q ds 1) (hP : WF b P ds 1) : IsTransfer (envT M) Q P ds a b 1 1 := by
  rcases h with ⟨rfl, rfl⟩ | ⟨_, h⟩
  · obtain ⟨rfl, rfl⟩ := WF.nil_iff hQ
    obtain ⟨rfl, rfl⟩ := WF.nil_iff hP
    unfold envT; rw [empty_isEmpty, if_pos rfl]; exact isTransfer_ones
  · have := h a b hQ hP
    unfold envT
    rw [this.notEmpty (WF.pos_left hQ (by omega)) (WF.pos_left hP (by omega)) (by omega) (by omega), if_neg (by simp)]
    exact this

theorem opOk_none (d : Nat) : OpOk d (none : Option (Tensor R)) := fun _ h => by simp at h

theorem WF.snoc {a b d : Nat} {P : List (Tensor R)} {X : Tensor R} {ds : List Nat} (h : WF a (P ++ [X]) (ds ++ [d]) b) :
    ∃ c, WF a P ds c ∧ X.dims = [c, d, b] ∧ 0 < c ∧ 0 < d ∧ 0 < b := by
  obtain ⟨d1, d2, c, h1, h2, h3⟩ := h.split
  cases h3 with
  | cons k1 k2 k3 k4 k5 =>
    cases k5
    have : ds = d1 ∧ [d] = [_] := List.append_inj' h1 rfl
    obtain ⟨rfl, h4⟩ := this
    obtain rfl : d = _ := by simpa using h4
    exact ⟨c, h2, k1, k2, k3, k4⟩

theorem WF.cons_inv {a b d : Nat} {P : List (Tensor R)} {X : Tensor R} {ds : List Nat} (h : WF a (X :: P) (d :: ds) b) :
    ∃ c, WF c P ds b ∧ X.dims = [a, d, c] ∧ 0 < a ∧ 0 < d ∧ 0 < c := by
  cases h with
  | cons k1 k2 k3 k4 k5 => exact ⟨_, k5, k1, k2, k3, k4⟩

theorem LeftOk.step {M : Tensor R} {Q P : List (Tensor R)} {ds : List Nat} {d : Nat} {B X : Tensor R} (h : LeftOk M Q P ds) :
    LeftOk (propMatrix M 1 B X none) (Q ++ [B]) (P ++ [X]) (ds ++ [d]) := by
  right
  refine ⟨by simp, fun a b hQ hP => ?_⟩
  obtain ⟨c, q1, q2, _⟩ := WF.snoc hQ
  obtain ⟨e, p1, p2, _⟩ := WF.snoc hP
  rcases h with ⟨rfl, rfl⟩ | ⟨_, h⟩
  · obtain ⟨rfl, rfl⟩ := WF.nil_iff q1
    obtain ⟨rfl, rfl⟩ := WF.nil_iff p1
    rw [propMatrix_empty]
    exact isTransfer_init q2 p2 (opOk_none d)
  · exact propMatrix_right (h c e q1 p1) q1 p1 (by omega) (by omega) q2 p2 (opOk_none d)

theorem RightOk.step {M : Tensor R} {Q P : List (Tensor R)} {ds : List Nat} {d : Nat} {B X : Tensor R} (h : RightOk M Q P ds) :
    RightOk (propMatrix M (-1) B X none) (B :: Q) (X :: P) (d :: ds) := by
  right
  refine ⟨by simp, fun a b hQ hP => ?_⟩
  obtain ⟨c, q1, q2, _, _, qc⟩ := WF.cons_inv hQ
  obtain ⟨e, p1, p2, _, _, pe⟩ := WF.cons_inv hP
  rcases h with ⟨rfl, rfl⟩ | ⟨_, h⟩
  · obtain ⟨rfl, rfl⟩ := WF.nil_iff q1
    obtain ⟨rfl, rfl⟩ := WF.nil_iff p1
    rw [propMatrix_empty]
    exact isTransfer_init q2 p2 (opOk_none d)
  · exact propMatrix_left (h c e q1 p1) q1 p1 qc pe q2 p2 (opOk_none d)

/-! ### the cache -/

/-- the caches are right for all the bonds up to `lo` (left parts) and beyond `hi` (right parts) -/
structure LInv (ds : List Nat) (weight : List R) (bras : List (List (Tensor R))) (f : LForm R) (lo hi : Nat) (K : List (Tensor R)) : Prop where
  weightEq : f.weight = weight
  brasEq : f.bras = bras
  lenK : K.length = ds.length
  here : f.here < ds.length
  lenM : f.mat.length = bras.length
  lenm : ∀ n, n < bras.length → (f.mat.getD n []).length = ds.length + 1
  left : ∀ n, n < bras.length → ∀ j, j ≤ lo → j ≤ ds.length →
    LeftOk ((f.mat.getD n []).getD j Tensor.empty) ((bras.getD n []).take j) (K.take j) (ds.take j)
  right : ∀ n, n < bras.length → ∀ j, hi < j → j ≤ ds.length →
    RightOk ((f.mat.getD n []).getD j Tensor.empty) ((bras.getD n []).drop j) (K.drop j) (ds.drop j)

theorem zipWith_getD {α β γ : Type} (g : α → β → γ) (l : List α) (m : List β) {n : Nat} (h1 : n < l.length) (h2 : n < m.length)
    (a : α) (b : β) (c : γ) : (List.zipWith g l m).getD n c = g (l.getD n a) (m.getD n b) := by
  simp [List.getElem?_zipWith, h1, h2]

theorem take_set_ge {α : Type} (K : List α) {h j : Nat} (X : α) (hj : j ≤ h) : (K.set h X).take j = K.take j := by
  rw [List.take_set]
  exact List.set_eq_of_length_le (by simp; omega)

theorem drop_set_lt {α : Type} (K : List α) {h j : Nat} (X : α) (hj : h < j) : (K.set h X).drop j = K.drop j := by
  rw [List.drop_set, if_pos hj]

theorem take_succ_site {K : List (Tensor R)} {h : Nat} (hh : h < K.length) : K.take (h + 1) = K.take h ++ [site K h] := by
  rw [List.take_succ_eq_append_getElem hh]; simp [site, hh]

theorem drop_site {K : List (Tensor R)} {h : Nat} (hh : h < K.length) : K.drop h = site K h :: K.drop (h + 1) := by
  rw [List.drop_eq_getElem_cons hh]; simp [site, hh]

theorem site_set_self {K : List (Tensor R)} {h : Nat} (hh : h < K.length) (X : Tensor R) : site (K.set h X) h = X := by
  simp [site, hh]

variable {ds : List Nat} {weight : List R} {bras : List (List (Tensor R))} {f : LForm R} {lo hi : Nat} {K : List (Tensor R)}

theorem LInv.size (h : LInv ds weight bras f lo hi K) (hb : ∀ b ∈ bras, b.length = ds.length) (hne : bras ≠ []) : f.size = ds.length := by
  unfold LForm.size
  rw [h.brasEq]
  cases bras with
  | nil => exact absurd rfl hne
  | cons b bs => exact hb b (by simp)

theorem LInv.stepRight (h : LInv ds weight bras f lo hi K) (hb : ∀ b ∈ bras, b.length = ds.length) (hne : bras ≠ [])
    (hlo : f.here ≤ lo) (hN : f.here + 1 < ds.length) (X : Tensor R) :
    LInv ds weight bras (f.propagateRight X) (f.here + 1) (max hi (f.here + 1)) (K.set f.here X) ∧
      (f.propagateRight X).here = f.here + 1 := by
  have hs := h.size hb hne
  unfold LForm.propagateRight
  rw [if_neg (by omega)]
  have hbr := h.brasEq
  have hg : ∀ n, n < bras.length → (List.zipWith (fun bra m =>
      m.set (f.here + 1) (propMatrix (m.getD f.here Tensor.empty) 1 (site bra f.here) X none)) f.bras f.mat).getD n [] =
      (f.mat.getD n []).set (f.here + 1) (propMatrix ((f.mat.getD n []).getD f.here Tensor.empty) 1 (site (bras.getD n []) f.here) X none) := by
    intro n hn
    rw [zipWith_getD _ _ _ (by rw [hbr]; exact hn) (by rw [h.lenM]; exact hn) [] [], hbr]
  have hbl : ∀ n, n < bras.length → (bras.getD n []).length = ds.length := by
    intro n hn
    rw [List.getD_eq_getElem _ _ hn]; exact hb _ (List.getElem_mem hn)
  refine ⟨⟨h.weightEq, hbr, by simp [h.lenK], by simpa using hN, by simp [hbr, h.lenM], ?_, ?_, ?_⟩, rfl⟩
  · intro n hn; simp only; rw [hg n hn, List.length_set]; exact h.lenm n hn
  · intro n hn j hj hjN
    simp only
    rw [hg n hn]
    rcases Nat.lt_or_ge j (f.here + 1) with hlt | hge
    · have e : ((f.mat.getD n []).set (f.here + 1) (propMatrix ((f.mat.getD n []).getD f.here Tensor.empty) 1
          (site (bras.getD n []) f.here) X none)).getD j Tensor.empty = (f.mat.getD n []).getD j Tensor.empty := by
        simp [List.getElem?_set, show f.here + 1 ≠ j by omega]
      rw [e, take_set_ge _ _ (by omega)]
      exact h.left n hn j (by omega) hjN
    · obtain rfl : j = f.here + 1 := by omega
      have e : ((f.mat.getD n []).set (f.here + 1) (propMatrix ((f.mat.getD n []).getD f.here Tensor.empty) 1
          (site (bras.getD n []) f.here) X none)).getD (f.here + 1) Tensor.empty =
          propMatrix ((f.mat.getD n []).getD f.here Tensor.empty) 1 (site (bras.getD n []) f.here) X none := by
        have := h.lenm n hn
        simp only [List.getD_eq_getElem?_getD] at this
        simp [this, show f.here < ds.length by omega]
      rw [e, take_succ_site (by rw [hbl n hn]; omega), take_succ_site (by rw [List.length_set, h.lenK]; omega),
        site_set_self (by rw [h.lenK]; omega), take_set_ge _ _ le_rfl, List.take_succ_eq_append_getElem (by omega)]
      exact (h.left n hn f.here hlo (by omega)).step
  · intro n hn j hj hjN
    simp only
    rw [hg n hn]
    have hj1 : f.here + 1 < j := lt_of_le_of_lt (le_max_right _ _) hj
    have hj2 : hi < j := lt_of_le_of_lt (le_max_left _ _) hj
    have e : ((f.mat.getD n []).set (f.here + 1) (propMatrix ((f.mat.getD n []).getD f.here Tensor.empty) 1
        (site (bras.getD n []) f.here) X none)).getD j Tensor.empty = (f.mat.getD n []).getD j Tensor.empty := by
      simp [List.getElem?_set, show f.here + 1 ≠ j by omega]
    rw [e, drop_set_lt _ _ (by omega)]
    exact h.right n hn j hj2 hjN

theorem LInv.stepLeft (h : LInv ds weight bras f lo hi K) (hb : ∀ b ∈ bras, b.length = ds.length)
    (hhi : hi ≤ f.here) (h0 : 0 < f.here) (X : Tensor R) :
    LInv ds weight bras (f.propagateLeft X) (min lo (f.here - 1)) (f.here - 1) (K.set f.here X) ∧
      (f.propagateLeft X).here = f.here - 1 := by
  unfold LForm.propagateLeft
  rw [if_neg (by omega)]
  have hbr := h.brasEq
  have hN := h.here
  have hg : ∀ n, n < bras.length → (List.zipWith (fun bra m =>
      m.set f.here (propMatrix (m.getD (f.here + 1) Tensor.empty) (-1) (site bra f.here) X none)) f.bras f.mat).getD n [] =
      (f.mat.getD n []).set f.here (propMatrix ((f.mat.getD n []).getD (f.here + 1) Tensor.empty) (-1) (site (bras.getD n []) f.here) X none) := by
    intro n hn
    rw [zipWith_getD _ _ _ (by rw [hbr]; exact hn) (by rw [h.lenM]; exact hn) [] [], hbr]
  have hbl : ∀ n, n < bras.length → (bras.getD n []).length = ds.length := by
    intro n hn
    rw [List.getD_eq_getElem _ _ hn]; exact hb _ (List.getElem_mem hn)
  refine ⟨⟨h.weightEq, hbr, by simp [h.lenK], by simp only; omega, by simp [hbr, h.lenM], ?_, ?_, ?_⟩, rfl⟩
  · intro n hn; simp only; rw [hg n hn, List.length_set]; exact h.lenm n hn
  · intro n hn j hj hjN
    simp only
    rw [hg n hn]
    have e : ((f.mat.getD n []).set f.here (propMatrix ((f.mat.getD n []).getD (f.here + 1) Tensor.empty) (-1)
        (site (bras.getD n []) f.here) X none)).getD j Tensor.empty = (f.mat.getD n []).getD j Tensor.empty := by
      simp [List.getElem?_set, show f.here ≠ j by omega]
    rw [e, take_set_ge _ _ (by omega)]
    exact h.left n hn j (by omega) hjN
  · intro n hn j hj hjN
    simp only
    rw [hg n hn]
    rcases Nat.lt_or_ge f.here j with hlt | hge
    · have e : ((f.mat.getD n []).set f.here (propMatrix ((f.mat.getD n []).getD (f.here + 1) Tensor.empty) (-1)
          (site (bras.getD n []) f.here) X none)).getD j Tensor.empty = (f.mat.getD n []).getD j Tensor.empty := by
        simp [List.getElem?_set, show f.here ≠ j by omega]
      rw [e, drop_set_lt _ _ hlt]
      exact h.right n hn j (by omega) hjN
    · obtain rfl : j = f.here := by omega
      have e : ((f.mat.getD n []).set f.here (propMatrix ((f.mat.getD n []).getD (f.here + 1) Tensor.empty) (-1)
          (site (bras.getD n []) f.here) X none)).getD f.here Tensor.empty =
          propMatrix ((f.mat.getD n []).getD (f.here + 1) Tensor.empty) (-1) (site (bras.getD n []) f.here) X none := by
        have := h.lenm n hn
        simp only [List.getD_eq_getElem?_getD] at this
        simp [this, show f.here < ds.length + 1 by omega]
      rw [e, drop_site (K := bras.getD n []) (by rw [hbl n hn]; omega), drop_site (K := K.set f.here X) (by rw [List.length_set, h.lenK]; omega),
        site_set_self (by rw [h.lenK]; omega), drop_set_lt _ _ (Nat.lt_succ_self _), List.drop_eq_getElem_cons (l := ds) (i := f.here) (by omega)]
      exact (h.right n hn (f.here + 1) (by omega) (by omega)).step

/-! ### the constructor and histories -/

theorem set_site_self' {K : List (Tensor R)} {h : Nat} (hh : h < K.length) : K.set h (site K h) = K := by
  unfold site
  apply List.ext_getElem (by simp)
  intro n h1 h2
  rw [List.getElem_set]
  split
  · subst_vars; simp [hh]
  · rfl

theorem LInv.new {ket : List (Tensor R)} {start : Nat} (hb : ∀ b ∈ bras, b.length = ds.length) (hne : bras ≠ [])
    (hk : ket.length = ds.length) (hs : start < ds.length) :
    LInv ds weight bras (LForm.new weight bras ket start) start start ket ∧ (LForm.new weight bras ket start).here = start := by
  have hl : (bras.getD 0 []).length = ds.length := by
    cases bras with
    | nil => exact absurd rfl hne
    | cons b bs => exact hb b (by simp)
  have h0 : LInv ds weight bras ⟨weight, bras, 0, bras.map fun _ => List.replicate ((bras.getD 0 []).length + 1) Tensor.empty⟩
      0 (ds.length - 1) ket := by
    have hg : ∀ n, n < bras.length → (bras.map fun _ => List.replicate ((bras.getD 0 []).length + 1) (Tensor.empty : Tensor R)).getD n [] =
        List.replicate (ds.length + 1) Tensor.empty := by
      intro n hn
      rw [hl]; simp [hn]
    refine ⟨rfl, rfl, hk, by simp only; omega, by simp, ?_, ?_, ?_⟩
    · intro n hn; simp only; rw [hg n hn]; simp
    · intro n hn j hj hjN
      simp only
      obtain rfl : j = 0 := by omega
      rw [hg n hn]
      left; simp
    · intro n hn j hj hjN
      simp only
      obtain rfl : j = ds.length := by omega
      rw [hg n hn]
      left; simp
  have h1 : ∀ m, m ≤ start → LInv ds weight bras ((List.range m).foldl (fun f _ => f.propagateRight (site ket f.here))
      ⟨weight, bras, 0, bras.map fun _ => List.replicate ((bras.getD 0 []).length + 1) Tensor.empty⟩) m (ds.length - 1) ket ∧
      ((List.range m).foldl (fun f _ => f.propagateRight (site ket f.here))
      (⟨weight, bras, 0, bras.map fun _ => List.replicate ((bras.getD 0 []).length + 1) Tensor.empty⟩ : LForm R)).here = m := by
    intro m
    induction m with
    | zero => intro _; exact ⟨h0, rfl⟩
    | succ m ih =>
      intro hm
      obtain ⟨i1, i2⟩ := ih (by omega)
      rw [List.range_succ, List.foldl_append]
      simp only [List.foldl_cons, List.foldl_nil]
      have := i1.stepRight hb hne (by omega) (by omega) (site ket m)
      rw [i2, set_site_self' (by omega), max_eq_left (by omega)] at this
      rw [i2]
      exact this
  obtain ⟨i1, i2⟩ := h1 start le_rfl
  unfold LForm.new
  simp only
  generalize hf : (List.range start).foldl (fun f _ => f.propagateRight (site ket f.here))
      (⟨weight, bras, 0, bras.map fun _ => List.replicate ((bras.getD 0 []).length + 1) Tensor.empty⟩ : LForm R) = f at i1 i2 ⊢
  have hsz := i1.size hb hne
  have hsz' : ({ f with here := f.size - 1 } : LForm R).size = ds.length := hsz
  rw [hsz', hsz]
  have j0 : LInv ds weight bras ({ f with here := ds.length - 1 } : LForm R) start (ds.length - 1) ket :=
    ⟨i1.weightEq, i1.brasEq, i1.lenK, by simp only; omega, i1.lenM, i1.lenm, i1.left, i1.right⟩
  have h2 : ∀ m, m ≤ ds.length - 1 - start → LInv ds weight bras ((List.range m).foldl (fun f _ => f.propagateLeft (site ket f.here))
      ({ f with here := ds.length - 1 } : LForm R)) start (ds.length - 1 - m) ket ∧
      ((List.range m).foldl (fun f _ => f.propagateLeft (site ket f.here)) ({ f with here := ds.length - 1 } : LForm R)).here =
        ds.length - 1 - m := by
    intro m
    induction m with
    | zero => intro _; exact ⟨j0, rfl⟩
    | succ m ih =>
      intro hm
      obtain ⟨i1, i2⟩ := ih (by omega)
      rw [List.range_succ, List.foldl_append]
      simp only [List.foldl_cons, List.foldl_nil]
      have := i1.stepLeft hb (by omega) (by omega) (site ket (ds.length - 1 - m))
      rw [i2, set_site_self' (by omega), min_eq_left (by omega)] at this
      rw [i2]
      rwa [show ds.length - 1 - (m + 1) = ds.length - 1 - m - 1 by omega]
  have := h2 _ le_rfl
  rwa [show ds.length - 1 - (ds.length - 1 - start) = start by omega] at this

/-- the caches are right around the current site, with the tensors `k.1` on its left and `k.2` on its right -/
def LGood (ds : List Nat) (weight : List R) (bras : List (List (Tensor R))) (f : LForm R) (k : List (Tensor R) × List (Tensor R)) : Prop :=
  ∃ K, LInv ds weight bras f f.here f.here K ∧ K.take f.here = k.1 ∧ K.drop (f.here + 1) = k.2

theorem LGood.move {f : LForm R} {k : List (Tensor R) × List (Tensor R)} (h : LGood ds weight bras f k)
    (hb : ∀ b ∈ bras, b.length = ds.length) (hne : bras ≠ []) (m : Move (Tensor R)) :
    LGood ds weight bras (f.move m) (m.after k) := by
  obtain ⟨K, h1, h2, h3⟩ := h
  have hN := h1.here
  have hK := h1.lenK
  cases m with
  | right X =>
    simp only [LForm.move, LForm.propagate, Move.after, show (1 : Int) > 0 by decide, show ¬ (-1 : Int) > 0 by decide, if_true, if_false]
    by_cases hl : f.here + 1 = ds.length
    · have e : f.propagateRight X = f := by
        unfold LForm.propagateRight; rw [if_pos (by rw [h1.size hb hne]; exact hl)]
      have : k.2 = [] := by rw [← h3]; simp; omega
      rw [e, if_pos this]; exact ⟨K, h1, h2, h3⟩
    · obtain ⟨i1, i2⟩ := h1.stepRight hb hne le_rfl (by omega) X
      have : k.2 ≠ [] := by rw [← h3]; simp; omega
      rw [if_neg this]
      refine ⟨K.set f.here X, ?_, ?_, ?_⟩
      · rw [i2]; rwa [max_eq_right (by omega)] at i1
      · rw [i2, take_succ_site (by simp; omega), take_set_ge _ _ le_rfl, site_set_self (by omega), h2]
      · rw [i2, drop_set_lt _ _ (by omega), ← h3, List.tail_drop]
  | left X =>
    simp only [LForm.move, LForm.propagate, Move.after, show (1 : Int) > 0 by decide, show ¬ (-1 : Int) > 0 by decide, if_true, if_false]
    by_cases hl : f.here = 0
    · have e : f.propagateLeft X = f := by
        unfold LForm.propagateLeft; rw [if_pos hl]
      have : k.1 = [] := by rw [← h2, hl]; simp
      rw [e, if_pos this]; exact ⟨K, h1, h2, h3⟩
    · obtain ⟨i1, i2⟩ := h1.stepLeft hb le_rfl (by omega) X
      have : k.1 ≠ [] := by rw [← h2]; intro h; rw [List.take_eq_nil_iff] at h; rcases h with h | h; exact hl h; rw [h] at hK; simp at hK; omega
      rw [if_neg this]
      refine ⟨K.set f.here X, ?_, ?_, ?_⟩
      · rw [i2]; rwa [min_eq_right (by omega)] at i1
      · rw [i2, take_set_ge _ _ (by omega), ← h2, List.dropLast_take (by omega)]
      · rw [i2, show f.here - 1 + 1 = f.here by omega, drop_site (by simp; omega), drop_set_lt _ _ (by omega), site_set_self (by omega), h3]

theorem LGood.moves {f : LForm R} {k : List (Tensor R) × List (Tensor R)} (h : LGood ds weight bras f k)
    (hb : ∀ b ∈ bras, b.length = ds.length) (hne : bras ≠ []) (ms : List (Move (Tensor R))) :
    LGood ds weight bras (ms.foldl LForm.move f) (ms.foldl Move.after k) := by
  induction ms generalizing f k with
  | nil => exact h
  | cons m ms ih => exact ih (h.move hb hne m)

theorem LGood.new {ket : List (Tensor R)} {start : Nat} (hb : ∀ b ∈ bras, b.length = ds.length) (hne : bras ≠ [])
    (hk : ket.length = ds.length) (hs : start < ds.length) :
    LGood ds weight bras (LForm.new weight bras ket start) (ket.take start, ket.drop (start + 1)) := by
  obtain ⟨h1, h2⟩ := LInv.new (weight := weight) hb hne hk hs
  exact ⟨ket, by rw [h2]; exact h1, by rw [h2], by rw [h2]⟩

theorem LGood.here {f : LForm R} {k : List (Tensor R) × List (Tensor R)} (h : LGood ds weight bras f k) : f.here = k.1.length := by
  obtain ⟨K, h1, h2, h3⟩ := h
  rw [← h2, List.length_take, h1.lenK]
  have := h1.here
  omega

end MPS.Form
