import Verif.SimplifyLemmas5

set_option linter.unusedSectionVars false
set_option linter.unusedSimpArgs false

namespace MPS.Simp
open MPS Tensor Form Minim Obc
variable {K : Type} [RCLike K]

/-! ### the norm of the target -/

theorem sum_triangle_up (n : Nat) (x : Nat → Nat → K) :
    ∑ i ∈ Finset.range n, ∑ j' ∈ Finset.range (n - i), (if i = i + j' then x i (i + j') else x i (i + j') + x (i + j') i) =
      ∑ i ∈ Finset.range n, ∑ j ∈ Finset.range n, x i j := by
  have h1 : ∀ i ∈ Finset.range n, ∑ j' ∈ Finset.range (n - i), (if i = i + j' then x i (i + j') else x i (i + j') + x (i + j') i) =
      ∑ j ∈ Finset.Ico i n, if i = j then x i j else x i j + x j i := by
    intro i _
    rw [Finset.sum_Ico_eq_sum_range]
  rw [Finset.sum_congr rfl h1, Finset.range_eq_Ico, Finset.sum_Ico_Ico_comm]
  have h2 := Props.sum_triangle n (fun i j => x i j)
  simp only [← Finset.range_eq_Ico]
  rw [← h2]
  refine Finset.sum_congr rfl fun j _ => Finset.sum_congr rfl fun i _ => ?_
  by_cases hij : i = j
  · subst hij; simp
  · rw [if_neg hij, if_pos (Ne.symm hij), add_comm]

theorem manyNorm2_spec {ds : List Nat} {Q : List (List (Tensor K))} {w : List K} (hQ : ∀ b ∈ Q, IsMPS ds b) :
    manyNorm2 Q w = some (normSqOf ds (superpose w Q)) := by
  let x : Nat → Nat → K := fun i j => star (w.getD i 0) * w.getD j 0 * MPS.inner ds (amp (Q.getD i [])) (amp (Q.getD j []))
  have hst : ∀ i j, star (x i j) = x j i := by
    intro i j
    simp only [x]
    rw [star_mul', star_mul', star_star, Props.inner_star']
    ring
  have hre : ∀ i j, ((2 * RCLike.re (x i j) : ℝ) : K) = x i j + x j i := by
    intro i j
    rw [← hst i j, RCLike.star_def, RCLike.add_conj]
    push_cast; ring
  have inner1 : ∀ i, i < Q.length → ∀ v : K,
      (List.range (Q.length - i)).foldlM (fun (v : K) j' =>
        let j := i + j'
        (scprod (Q.getD i []) (Q.getD j []) 1).map fun p =>
          let y := p * star (w.getD i 0) * w.getD j 0
          if i = j then v + y else v + ((2 * RCLike.re y : ℝ) : K)) v =
      some (v + ∑ j' ∈ Finset.range (Q.length - i), if i = i + j' then x i (i + j') else x i (i + j') + x (i + j') i) := by
    intro i hi v
    refine Props.foldlM_sum (fun j' => scprod (Q.getD i []) (Q.getD (i + j') []) 1) (fun v j' p =>
          let y := p * star (w.getD i 0) * w.getD (i + j') 0
          if i = i + j' then v + y else v + ((2 * RCLike.re y : ℝ) : K)) _ _ v fun j hj =>
        ⟨_, scprod_spec (hQ _ (Props.getD_mem hi [])) (hQ _ (Props.getD_mem (by omega) [])) 1, fun v => ?_⟩
    simp only
    have e : MPS.inner ds (amp (Q.getD i [])) (amp (Q.getD (i + j) [])) * star (w.getD i 0) * w.getD (i + j) 0 = x i (i + j) := by
      simp only [x]; ring
    rw [e, hre]
    split <;> rfl
  have outer : ∀ n, n ≤ Q.length → (List.range n).foldlM (fun (v : K) i =>
      (List.range (Q.length - i)).foldlM (fun (v : K) j' =>
        let j := i + j'
        (scprod (Q.getD i []) (Q.getD j []) 1).map fun p =>
          let y := p * star (w.getD i 0) * w.getD j 0
          if i = j then v + y else v + ((2 * RCLike.re y : ℝ) : K)) v) 0 =
      some (∑ i ∈ Finset.range n, ∑ j' ∈ Finset.range (Q.length - i), if i = i + j' then x i (i + j') else x i (i + j') + x (i + j') i) := by
    intro n
    induction n with
    | zero => intro _; simp
    | succ n ih =>
      intro hn
      rw [List.range_succ, List.foldlM_append, ih (by omega)]
      simp only [Option.bind_eq_bind, Option.bind_some, List.foldlM_cons, List.foldlM_nil]
      rw [inner1 n (by omega), Finset.sum_range_succ (fun i => ∑ j' ∈ Finset.range (Q.length - i), if i = i + j' then x i (i + j') else x i (i + j') + x (i + j') i)]
      rfl
  unfold manyNorm2
  rw [outer _ le_rfl, sum_triangle_up, Option.map_some]
  have h3 : ∑ i ∈ Finset.range Q.length, ∑ j ∈ Finset.range Q.length, x i j = ((normSqOf ds (superpose w Q) : ℝ) : K) := by
    have : MPS.inner ds (superpose w Q) (superpose w Q) = ((normSqOf ds (superpose w Q) : ℝ) : K) := by
      unfold MPS.inner normSqOf
      rw [sumCfg_ofReal]
      exact sumCfg_congr fun s _ => by rw [ofReal_normSq]
    rw [← this, Props.inner_superpose]
    refine Finset.sum_congr rfl fun i _ => ?_
    rw [inner_superpose_right, Finset.mul_sum]
    refine Finset.sum_congr rfl fun j _ => ?_
    simp only [x]; ring
  rw [h3, RCLike.ofReal_re]

/-! ### caches of all vectors -/

theorem zipWith_getD {α β γ : Type} (f : α → β → γ) (a : α) (b : β) (c : γ) : ∀ (l : List α) (l' : List β) (n : Nat), n < l.length → n < l'.length →
    (List.zipWith f l l').getD n c = f (l.getD n a) (l'.getD n b)
  | x :: l, y :: l', 0, _, _ => rfl
  | x :: l, y :: l', n + 1, h, h' => by
    rw [List.zipWith_cons_cons, List.getD_cons_succ, List.getD_cons_succ, List.getD_cons_succ]
    exact zipWith_getD f a b c l l' n (by simpa using h) (by simpa using h')
  | [], _, _, h, _ => by simp at h
  | _ :: _, [], _, _, h => by simp at h

theorem update_get {m : Many K} (hm : m.mat.length = m.Q.length) (k : Nat) (X : Tensor K) (s : Int) {n : Nat} (hn : n < m.Q.length) :
    (m.update k X s).mat.getD n [] = if s > 0 then (m.mat.getD n []).set (k + 1) (propMatrix ((m.mat.getD n []).getD k Tensor.empty) 1 X (site (m.Q.getD n []) k) none)
      else (m.mat.getD n []).set (k + 1) (propMatrix ((m.mat.getD n []).getD (k + 2) Tensor.empty) (-1) X (site (m.Q.getD n []) k) none) :=
  zipWith_getD _ [] [] [] _ _ n hn (by omega)

theorem update_length {m : Many K} (hm : m.mat.length = m.Q.length) (k : Nat) (X : Tensor K) (s : Int) : (m.update k X s).mat.length = m.Q.length := by
  simp [Many.update, hm]

theorem AllCaches.stepRight {ds : List Nat} {P P' : List (Tensor K)} {m : Many K} {k : Nat} (h : AllCaches ds m.Q P m.mat k (k + 1))
    (hk : k < ds.length) (hQ : ∀ q ∈ m.Q, WF 1 q ds 1) (hP' : P'.length = ds.length) (ht : P'.take k = P.take k) (hd : P'.drop (k + 2) = P.drop (k + 2)) :
    AllCaches ds m.Q P' (m.update k (site P' k) 1).mat (k + 1) (k + 2) := by
  refine ⟨update_length h.1 _ _ _, fun n hn => ?_⟩
  rw [update_get h.1 _ _ _ hn, if_pos (by decide)]
  exact (h.2 n hn).stepRight hk (hQ _ (Props.getD_mem hn [])).length hP' ht hd

theorem AllCaches.stepLeft {ds : List Nat} {P P' : List (Tensor K)} {m : Many K} {k : Nat} (h : AllCaches ds m.Q P m.mat k (k + 1))
    (hk : k < ds.length) (hQ : ∀ q ∈ m.Q, WF 1 q ds 1) (hP' : P'.length = ds.length) (ht : P'.take (k - 1) = P.take (k - 1)) (hd : P'.drop (k + 1) = P.drop (k + 1)) :
    AllCaches ds m.Q P' (m.update k (site P' k) (-1)).mat (k - 1) k := by
  refine ⟨update_length h.1 _ _ _, fun n hn => ?_⟩
  rw [update_get h.1 _ _ _ hn, if_neg (by decide)]
  exact (h.2 n hn).stepLeft hk (hQ _ (Props.getD_mem hn [])).length hP' ht hd

theorem AllCaches.mono {ds : List Nat} {Q : List (List (Tensor K))} {P : List (Tensor K)} {mat : List (List (Tensor K))} {lo hi lo' hi' : Nat}
    (h : AllCaches ds Q P mat lo hi) (h1 : lo' ≤ lo) (h2 : hi ≤ hi') : AllCaches ds Q P mat lo' hi' :=
  ⟨h.1, fun n hn => (h.2 n hn).mono h1 h2⟩

theorem foldl_add_scalar (f : Nat → K) (n : Nat) (v : K) : (List.range n).foldl (fun M i => M + f i) v = v + ∑ i ∈ Finset.range n, f i := by
  induction n with
  | zero => simp
  | succ n ih => rw [List.range_succ, List.foldl_append, ih, Finset.sum_range_succ]; simp [add_assoc]

theorem scalarProduct_right {ds : List Nat} {P : List (Tensor K)} {m : Many K} {lo hi : Nat} (h : AllCaches ds m.Q P m.mat lo hi) (hlo : ds.length ≤ lo)
    (h1 : 0 < ds.length) (hP : WF 1 P ds 1) (hQ : ∀ q ∈ m.Q, WF 1 q ds 1) :
    m.scalarProduct (ds.length - 1) = MPS.inner ds (amp P) (superpose m.weights m.Q) := by
  unfold Many.scalarProduct
  rw [foldl_add_scalar, zero_add, inner_superpose_right]
  refine Finset.sum_congr rfl fun n hn => ?_
  have hn := Finset.mem_range.1 hn
  have hq := hQ _ (Props.getD_mem hn [])
  have lP := hP.length
  have lq := hq.length
  have hl := (h.2 n hn).lefts ds.length hlo le_rfl
  rw [List.take_of_length_le (by omega), List.take_of_length_le (by omega), List.take_of_length_le (by omega)] at hl
  rw [mul_comm]
  congr 1
  unfold Many.matrix
  rw [show ds.length - 1 + 1 = ds.length by omega]
  rcases hl with ⟨hl, -⟩ | ⟨-, hl⟩
  · rw [hl] at h1; simp at h1
  · refine propClose1_transfer (hl 1 1 hP hq) hP hq ?_ ?_
    · intro h0; rw [h0] at lP; simp at lP; omega
    · intro h0; rw [h0] at lq; simp at lq; omega

theorem scalarProduct_left {ds : List Nat} {P : List (Tensor K)} {m : Many K} {lo : Nat} (h : AllCaches ds m.Q P m.mat lo 0)
    (h1 : 0 < ds.length) (hP : WF 1 P ds 1) (hQ : ∀ q ∈ m.Q, WF 1 q ds 1) :
    m.scalarProduct 0 = MPS.inner ds (amp P) (superpose m.weights m.Q) := by
  unfold Many.scalarProduct
  rw [foldl_add_scalar, zero_add, inner_superpose_right]
  refine Finset.sum_congr rfl fun n hn => ?_
  have hn := Finset.mem_range.1 hn
  have hq := hQ _ (Props.getD_mem hn [])
  have lP := hP.length
  have lq := hq.length
  have hl := (h.2 n hn).rights 0 le_rfl (by omega)
  simp only [List.drop_zero, Nat.zero_add] at hl
  rw [mul_comm]
  congr 1
  unfold Many.matrix
  rcases hl with ⟨hl, -⟩ | ⟨-, hl⟩
  · rw [hl] at h1; simp at h1
  · refine propClose1_transfer (hl 1 1 hP hq) hP hq ?_ ?_
    · intro h0; rw [h0] at lP; simp at lP; omega
    · intro h0; rw [h0] at lq; simp at lq; omega

/-! ### the caches before the first sweep -/

theorem initRight_spec {ds : List Nat} {P : List (Tensor K)} (hl : P.length = ds.length) (k : Nat) : ∀ (m : Many K), (∀ q ∈ m.Q, WF 1 q ds 1) →
    k ≤ ds.length → AllCaches ds m.Q P m.mat 0 k →
    (m.initRight P k).Q = m.Q ∧ (m.initRight P k).weights = m.weights ∧ (m.initRight P k).L = m.L ∧ AllCaches ds m.Q P (m.initRight P k).mat 0 0 := by
  induction k with
  | zero => intro m _ _ h; exact ⟨rfl, rfl, rfl, h⟩
  | succ k ih =>
    intro m hQ hk h
    have hc : AllCaches ds m.Q P (m.update k (site P k) (-1)).mat 0 k := by
      refine ⟨update_length h.1 _ _ _, fun n hn => ?_⟩
      rw [update_get h.1 _ _ _ hn, if_neg (by decide)]
      have hc := h.2 n hn
      have hql := (hQ _ (Props.getD_mem hn [])).length
      have hlen := hc.len
      refine ⟨by simpa using hlen, ?_, ?_, ?_, ?_⟩
      · rw [getD_set_ne _ (by omega)]; exact hc.start
      · rw [getD_set_ne _ (by omega)]; exact hc.last
      · intro j hj hj2
        rw [getD_set_ne _ (by omega)]; exact hc.lefts j hj hj2
      · intro j hj hjN
        by_cases hjk : j = k
        · subst hjk
          rw [getD_set_eq _ (by omega), drop_site (K := P) (by omega), drop_site (K := m.Q.getD n []) (by omega),
            List.drop_eq_getElem_cons (show j < ds.length by omega)]
          exact (hc.rights (j + 1) (by omega) (by omega)).step
        · rw [getD_set_ne _ (by omega)]
          exact hc.rights j (by omega) hjN
    exact ih (m.update k (site P k) (-1)) hQ (by omega) hc

theorem initLeft_spec {ds : List Nat} {P : List (Tensor K)} (hl : P.length = ds.length) (n : Nat) : ∀ (k : Nat) (m : Many K), (∀ q ∈ m.Q, WF 1 q ds 1) →
    k + n = ds.length → AllCaches ds m.Q P m.mat k ds.length →
    (m.initLeft P n k).Q = m.Q ∧ (m.initLeft P n k).weights = m.weights ∧ (m.initLeft P n k).L = m.L ∧
      AllCaches ds m.Q P (m.initLeft P n k).mat ds.length ds.length := by
  induction n with
  | zero =>
    intro k m _ hk h
    obtain rfl : k = ds.length := by omega
    exact ⟨rfl, rfl, rfl, h⟩
  | succ n ih =>
    intro k m hQ hk h
    have hc : AllCaches ds m.Q P (m.update k (site P k) 1).mat (k + 1) ds.length := by
      refine ⟨update_length h.1 _ _ _, fun i hi => ?_⟩
      rw [update_get h.1 _ _ _ hi, if_pos (by decide)]
      have hc := h.2 i hi
      have hql := (hQ _ (Props.getD_mem hi [])).length
      have hlen := hc.len
      refine ⟨by simpa using hlen, ?_, ?_, ?_, ?_⟩
      · rw [getD_set_ne _ (by omega)]; exact hc.start
      · rw [getD_set_ne _ (by omega)]; exact hc.last
      · intro j hj hjN
        by_cases hjk : j = k + 1
        · subst hjk
          rw [getD_set_eq _ (by omega), take_succ_site (by omega), take_succ_site (by omega), List.take_succ_eq_append_getElem (by omega)]
          exact (hc.lefts k (by omega) (by omega)).step
        · rw [getD_set_ne _ (by omega)]
          exact hc.lefts j (by omega) hjN
      · intro j hj hj2
        obtain rfl : j = ds.length := by omega
        rw [getD_set_ne _ (by omega)]; exact hc.rights _ le_rfl le_rfl
    exact ih (k + 1) (m.update k (site P k) 1) hQ (by omega) hc

theorem base_caches {ds : List Nat} {Q : List (List (Tensor K))} {P : List (Tensor K)} (hP : P.length = ds.length) (hQ : ∀ q ∈ Q, WF 1 q ds 1) :
    AllCaches ds Q P (Q.map fun _ => List.replicate (ds.length + 2) Tensor.empty) 0 ds.length := by
  refine ⟨by simp, fun n hn => ?_⟩
  have e : (Q.map fun _ => List.replicate (ds.length + 2) (Tensor.empty : Tensor K)).getD n [] = List.replicate (ds.length + 2) Tensor.empty := by
    rw [List.getD_eq_getElem _ _ (by simpa using hn), List.getElem_map]
  have e' : ∀ j, (List.replicate (ds.length + 2) (Tensor.empty : Tensor K)).getD j Tensor.empty = Tensor.empty := by
    intro j
    rw [List.getD_eq_getElem?_getD, List.getElem?_replicate]
    split_ifs <;> rfl
  have hql := (hQ _ (Props.getD_mem hn [])).length
  rw [e]
  refine ⟨by simp, e' _, e' _, fun j hj _ => ?_, fun j hj hj2 => ?_⟩
  · obtain rfl : j = 0 := by omega
    exact Or.inl ⟨by simp, e' _⟩
  · obtain rfl : j = ds.length := by omega
    exact Or.inl ⟨by simp, e' _⟩

end MPS.Simp
