import Verif.TrotterLemmas2

/-! # Helper lemmas: unitary layers preserve the norm; the generators of the layers -/

set_option linter.unusedSectionVars false
set_option linter.unusedSimpArgs false

namespace MPS.Trotter
open MPS Tensor

theorem split_ds {ds : List Nat} {k : Nat} (h : k < ds.length) : ∃ ds1 d ds3, ds = ds1 ++ d :: ds3 ∧ ds1.length = k :=
  ⟨ds.take k, ds[k], ds.drop (k + 1), by simp, by simp; omega⟩

theorem inner_actSite {ds : List Nat} {k : Nat} (hk : k < ds.length) {U : Tensor ℂ} (hU : IsUnitary (ds.getD k 0) U)
    (φ : List Nat → ℂ) :
    MPS.inner ds (actSite (ds.getD k 0) U k φ) (actSite (ds.getD k 0) U k φ) = MPS.inner ds φ φ := by
  obtain ⟨ds1, d, ds3, rfl, hl⟩ := split_ds hk
  have hd : (ds1 ++ d :: ds3).getD k 0 = d := by rw [← hl]; simp
  rw [hd] at hU ⊢
  unfold MPS.inner
  rw [sumCfg_append, sumCfg_append]
  refine sumCfg_congr fun s1 hs1 => ?_
  rw [sumCfg_cons, sumCfg_cons, ← sumCfg_sum, ← sumCfg_sum]
  refine sumCfg_congr fun s3 hs3 => ?_
  have l1 : s1.length = k := by rw [hs1.length, hl]
  have e : ∀ i, actSite d U k φ (s1 ++ i :: s3) = ∑ t ∈ Finset.range d, U.get [i, t] * φ (s1 ++ t :: s3) := by
    intro i
    unfold actSite
    have g1 : (s1 ++ i :: s3).getD k 0 = i := by rw [← l1]; simp
    have g2 : ∀ t, (s1 ++ i :: s3).set k t = s1 ++ t :: s3 := by intro t; rw [← l1]; simp [List.set_append]
    rw [g1]; simp only [g2]
  simp only [e]
  exact iso_norm (Finset.range d) (Finset.range d) (fun i t => U.get [i, t]) (fun t => φ (s1 ++ t :: s3))
    (fun x hx x' hx' => hU x x' (Finset.mem_range.1 hx) (Finset.mem_range.1 hx'))

theorem inner_actPair {ds : List Nat} {k : Nat} (hk : k + 1 < ds.length) {U : Tensor ℂ}
    (hU : IsUnitary (ds.getD k 0 * ds.getD (k + 1) 0) U) (φ : List Nat → ℂ) :
    MPS.inner ds (actPair (ds.getD k 0) (ds.getD (k + 1) 0) U k φ) (actPair (ds.getD k 0) (ds.getD (k + 1) 0) U k φ)
      = MPS.inner ds φ φ := by
  obtain ⟨ds1, d, ds', rfl, hl⟩ := split_ds (k := k) (ds := ds) (by omega)
  cases ds' with
  | nil => simp at hk; omega
  | cons e ds3 =>
  have hd : (ds1 ++ d :: e :: ds3).getD k 0 = d := by rw [← hl]; simp
  have he : (ds1 ++ d :: e :: ds3).getD (k + 1) 0 = e := by rw [← hl]; simp
  rw [hd, he] at hU ⊢
  unfold MPS.inner
  rw [sumCfg_append, sumCfg_append]
  refine sumCfg_congr fun s1 hs1 => ?_
  simp only [sumCfg_cons]
  have l1 : s1.length = k := by rw [hs1.length, hl]
  have comm : ∀ F : Nat → Nat → List Nat → ℂ, ∑ i ∈ Finset.range d, ∑ j ∈ Finset.range e, sumCfg ds3 (F i j)
      = sumCfg ds3 (fun s => ∑ i ∈ Finset.range d, ∑ j ∈ Finset.range e, F i j s) := by
    intro F; simp only [sumCfg_sum]
  rw [comm, comm]
  refine sumCfg_congr fun s3 hs3 => ?_
  have g : ∀ i j, actPair d e U k φ (s1 ++ i :: j :: s3) = ∑ m ∈ Finset.range (d * e), U.get [i + d * j, m] *
      φ (s1 ++ (m % d) :: (m / d) :: s3) := by
    intro i j
    unfold actPair
    have g1 : (s1 ++ i :: j :: s3).getD k 0 = i := by rw [← l1]; simp
    have g1' : (s1 ++ i :: j :: s3).getD (k + 1) 0 = j := by rw [← l1]; simp
    have g2 : ∀ t u, ((s1 ++ i :: j :: s3).set k t).set (k + 1) u = s1 ++ t :: u :: s3 := by
      intro t u; rw [← l1]; simp [List.set_append]
    rw [g1, g1', sum_range_mul, Finset.sum_comm]
    simp only [g2]
    refine Finset.sum_congr rfl fun u hu => Finset.sum_congr rfl fun t ht => ?_
    have ht := Finset.mem_range.1 ht
    rw [Nat.add_mul_mod_self_left, Nat.mod_eq_of_lt ht, Nat.add_mul_div_left _ _ (by omega), Nat.div_eq_of_lt ht]
    simp
  simp only [g]
  have key := iso_norm (Finset.range (d * e)) (Finset.range (d * e)) (fun i t => U.get [i, t])
    (fun m => φ (s1 ++ (m % d) :: (m / d) :: s3))
    (fun x hx x' hx' => hU x x' (Finset.mem_range.1 hx) (Finset.mem_range.1 hx'))
  rw [sum_range_mul, sum_range_mul d e (fun x => star (φ (s1 ++ (x % d) :: (x / d) :: s3)) * _), Finset.sum_comm] at key
  rw [key, Finset.sum_comm]
  refine Finset.sum_congr rfl fun t ht => Finset.sum_congr rfl fun u hu => ?_
  have ht := Finset.mem_range.1 ht
  rw [Nat.add_mul_mod_self_left, Nat.mod_eq_of_lt ht, Nat.add_mul_div_left _ _ (by omega), Nat.div_eq_of_lt ht]
  simp

theorem partElt_congr {ds : List Nat} {k : Nat} {U : Nat → Tensor ℂ} {S S' : Nat → Bool}
    (hS : ∀ q, (PairAt ds.length k q ∨ Single ds.length k q) → S' q = S q) (s t : List Nat) :
    partElt ds k U S' s t = partElt ds k U S s t := by
  unfold partElt
  refine Finset.prod_congr rfl fun q hq => ?_
  unfold gateFactor
  by_cases a1 : PairAt ds.length k q
  · rw [if_pos a1, if_pos a1, hS q (Or.inl a1)]
  · rw [if_neg a1, if_neg a1]
    by_cases a2 : Single ds.length k q
    · rw [if_pos a2, if_pos a2, hS q (Or.inr a2)]
    · rw [if_neg a2, if_neg a2]
      have h3 : q ≠ 0 ∧ PairAt ds.length k (q - 1) := by
        unfold Single at a2; by_contra hc; exact a2 ⟨Finset.mem_range.1 hq, a1, by tauto⟩
      rw [hS (q - 1) (Or.inl h3.2)]

/-- a layer of unitary gates preserves the norm -/
theorem inner_layer {ds : List Nat} {k : Nat} {U : Nat → Tensor ℂ}
    (h2 : ∀ p, PairAt ds.length k p → IsUnitary (ds.getD p 0 * ds.getD (p + 1) 0) (U p))
    (h1 : ∀ p, Single ds.length k p → IsUnitary (ds.getD p 0) (U p)) (φ : List Nat → ℂ) :
    MPS.inner ds (actOp ds (layerElt ds k U) φ) (actOp ds (layerElt ds k U) φ) = MPS.inner ds φ φ := by
  have main : ∀ n, MPS.inner ds (actOp ds (partElt ds k U (fun q => decide (q < n))) φ)
      (actOp ds (partElt ds k U (fun q => decide (q < n))) φ) = MPS.inner ds φ φ := by
    intro n
    induction n with
    | zero =>
      have : ∀ s, IsCfg ds s → actOp ds (partElt ds k U (fun q => decide (q < 0))) φ s = φ s := fun s hs =>
        partElt_none ds k U _ (fun p _ => by simp) φ hs
      exact inner_congr this this
    | succ n ih =>
      rw [← ih]
      by_cases hp : PairAt ds.length k n
      · have : ∀ s, IsCfg ds s → actOp ds (partElt ds k U (fun q => decide (q < n + 1))) φ s
            = actPair (ds.getD n 0) (ds.getD (n + 1) 0) (U n) n (actOp ds (partElt ds k U (fun q => decide (q < n))) φ) s := by
          intro s hs
          unfold actOp actPair
          simp only [← sumCfg_mul_left, ← sumCfg_sum]
          refine sumCfg_congr fun t ht => ?_
          rw [← partElt_pair (S := fun q => decide (q < n)) hp (by simp) (by simp) (fun q hq _ => by simp only [decide_eq_decide]; omega) hs ht]
          simp only [Finset.sum_mul, mul_assoc]
        rw [inner_congr this this, inner_actPair hp.2 (h2 n hp)]
      · by_cases hs1 : Single ds.length k n
        · have : ∀ s, IsCfg ds s → actOp ds (partElt ds k U (fun q => decide (q < n + 1))) φ s
            = actSite (ds.getD n 0) (U n) n (actOp ds (partElt ds k U (fun q => decide (q < n))) φ) s := by
            intro s hs
            unfold actOp actSite
            simp only [← sumCfg_mul_left, ← sumCfg_sum]
            refine sumCfg_congr fun t ht => ?_
            rw [← partElt_single (S := fun q => decide (q < n)) hs1 (by simp) (by simp) (fun q hq _ => by simp only [decide_eq_decide]; omega) hs ht]
            simp only [Finset.sum_mul, mul_assoc]
          rw [inner_congr this this, inner_actSite hs1.1 (h1 n hs1)]
        · have : ∀ s, IsCfg ds s → actOp ds (partElt ds k U (fun q => decide (q < n + 1))) φ s
            = actOp ds (partElt ds k U (fun q => decide (q < n))) φ s := by
            intro s hs
            unfold actOp
            refine sumCfg_congr fun t ht => ?_
            rw [partElt_congr]
            intro q hq
            simp only [decide_eq_decide]
            have : q ≠ n := by rintro rfl; tauto
            omega
          exact inner_congr this this
  have : ∀ s, IsCfg ds s → actOp ds (layerElt ds k U) φ s = actOp ds (partElt ds k U (fun q => decide (q < ds.length))) φ s := by
    intro s _
    unfold actOp
    refine sumCfg_congr fun t _ => ?_
    rw [partElt_all ds k U _ (fun p hp _ => by simpa using hp)]
  rw [inner_congr this this, main]

/-! ### generators -/

/-- what the constructor stores -/
theorem unitaryLoop_spec (expm : Tensor ℂ → Tensor ℂ) (H : Ham ℂ) (k n : Nat) (hk : k ≤ 1) (h1 : (n - k) % 2 = 0)
    (h2 : k ≤ n) (h3 : n ≤ H.size ∨ n = k) (h4 : H.size ≤ n + 1) (dt : ℂ) :
    ∀ (fuel i : Nat) (U : List (Tensor ℂ)), H.size ≤ i + fuel → U.length = H.size →
      (i < k ∨ n ≤ i ∨ (i - k) % 2 = 0) →
      ∀ p, (site (unitaryLoop expm H k n dt fuel i U) p =
        if i ≤ p ∧ (PairAt H.size k p ∨ Single H.size k p) then expm (smul dt (generator H k n p).1) else site U p) := by
  intro fuel
  induction fuel with
  | zero =>
    intro i U hf hU hi p
    rw [unitaryLoop, if_neg]
    rintro ⟨a1, a2⟩
    rcases a2 with a2 | a2
    · have := a2.2; omega
    · have := a2.1; omega
  | succ fuel ih =>
    intro i U hf hU hi p
    unfold unitaryLoop
    by_cases hlt : i < H.size
    · rw [if_pos hlt]
      obtain ⟨l1, l2, l3⟩ := layer_gates hk h1 h2 h3 h4 hlt
      have hstep : (generator H k n i).2 = if (i < k ∨ n ≤ i) then 1 else 2 := by
        unfold generator
        by_cases hc : i < k ∨ n ≤ i
        · rw [if_pos hc, if_pos (by omega)]
        · rw [if_neg hc, if_neg (by omega)]
      simp only
      rw [ih _ _ (by rw [hstep]; split <;> omega) (by simp [hU]) (by rw [hstep]; split <;> omega)]
      have hset : site (U.set i (expm (smul dt (generator H k n i).1))) p = if p = i then expm (smul dt (generator H k n i).1) else site U p := by
        rw [site_set _ _ _ _ (by omega)]
      rw [hset]
      have hgi : PairAt H.size k i ∨ Single H.size k i := by
        by_cases hc : i < k ∨ n ≤ i
        · exact Or.inr (l1 hc)
        · exact Or.inl (l2 (by omega) (by omega) (by omega))
      by_cases hpi : p = i
      · subst hpi
        rw [if_pos rfl, if_neg (by rw [hstep]; intro hh; have := hh.1; split at this <;> omega), if_pos ⟨le_refl _, hgi⟩]
      · rw [if_neg hpi]
        have hiff : (i + (generator H k n i).2 ≤ p ∧ (PairAt H.size k p ∨ Single H.size k p)) ↔
            (i ≤ p ∧ (PairAt H.size k p ∨ Single H.size k p)) := by
          constructor
          · rintro ⟨a1, a2⟩; exact ⟨by omega, a2⟩
          · rintro ⟨a1, a2⟩
            refine ⟨?_, a2⟩
            rw [hstep]
            split
            · omega
            · next hc =>
              by_contra hcon
              have hp1 : p = i + 1 := by omega
              subst hp1
              have hlt2 : i + 1 < H.size := by
                rcases a2 with a | a
                · have := a.2; omega
                · exact a.1
              have := (layer_gates hk h1 h2 h3 h4 hlt2).2.2 (by omega) (by omega) (by omega)
              tauto
        simp only [hiff]
    · rw [if_neg hlt, if_neg]
      rintro ⟨a1, a2⟩
      rcases a2 with a2 | a2
      · have := a2.2; omega
      · have := a2.1; omega

/-- the generator of the gate at position `p` of the layer of parity `k` -/
noncomputable def gen (H : Ham ℂ) (k : Nat) (p : Nat) : Tensor ℂ := (generator H k (layerEnd k H.size) p).1

theorem gen_pair {H : Ham ℂ} {k p : Nat} (hk : k ≤ 1) (hp : PairAt H.size k p) : gen H k p =
    add (add (H.inter p) (kron2 (smul (1 / 2) (H.loc p)) (eye (H.dim (p + 1))))) (kron2 (eye (H.dim p)) (smul (1 / 2) (H.loc (p + 1)))) := by
  obtain ⟨n, hn, n1, n2, n3, n4⟩ := layerEnd_spec H.size k hk
  unfold gen generator
  rw [hn, if_neg]
  intro hc
  have := (layer_gates hk n1 n2 n3 n4 (p := p) (by have := hp.2; omega)).1 (by omega)
  exact this.2.1 hp

theorem gen_single {H : Ham ℂ} {k p : Nat} (hk : k ≤ 1) (hp : Single H.size k p) : gen H k p = smul (1 / 2) (H.loc p) := by
  obtain ⟨n, hn, n1, n2, n3, n4⟩ := layerEnd_spec H.size k hk
  unfold gen generator
  rw [hn, if_pos]
  by_contra hc
  have := layer_gates hk n1 n2 n3 n4 (p := p) hp.1
  by_cases h0 : (p - k) % 2 = 0
  · exact hp.2.1 (this.2.1 (by omega) (by omega) h0)
  · exact (this.2.2 (by omega) (by omega) (by omega)).2 hp

theorem mkUnitary_spec (expm : Tensor ℂ → Tensor ℂ) (H : Ham ℂ) (k : Nat) (hk : k ≤ 1) (dt : ℂ) :
    ∃ W, mkUnitary expm H k dt = some W ∧ W.k0 = k ∧ W.kN = layerEnd k H.size ∧
      ∀ p, PairAt H.size k p ∨ Single H.size k p → W.gate p = expm (smul (rotated dt) (gen H k p)) := by
  obtain ⟨n, hn, n1, n2, n3, n4⟩ := layerEnd_spec H.size k hk
  refine ⟨_, by unfold mkUnitary; rw [if_neg (by omega)], rfl, rfl, fun p hp => ?_⟩
  unfold Unitary.gate gen
  rw [hn]
  rw [unitaryLoop_spec expm H k n hk n1 n2 n3 n4 _ _ _ _ (by omega) (by simp) (by omega), if_pos ⟨by omega, hp⟩]

theorem gen_dims {H : Ham ℂ} {ds : List Nat} (hH : HamFits H ds) {k : Nat} (hk : k ≤ 1) :
    (∀ p, PairAt ds.length k p → (gen H k p).dims = [ds.getD p 0 * ds.getD (p + 1) 0, ds.getD p 0 * ds.getD (p + 1) 0]) ∧
    (∀ p, Single ds.length k p → (gen H k p).dims = [ds.getD p 0, ds.getD p 0]) := by
  rw [← hH.size]
  constructor
  · intro p hp
    rw [gen_pair hk hp]
    exact hH.inter p (by rw [← hH.size]; exact hp.2)
  · intro p hp
    rw [gen_single hk hp]
    exact hH.loc p (by rw [← hH.size]; exact hp.1)

theorem mkUnitary_fits {expm : Tensor ℂ → Tensor ℂ} (hexp : ∀ A n, A.dims = [n, n] → (expm A).dims = [n, n])
    {H : Ham ℂ} {ds : List Nat} (hH : HamFits H ds) (k : Nat) (hk : k ≤ 1) (dt : ℂ) :
    ∃ W, mkUnitary expm H k dt = some W ∧ Fits W ds k ∧
      ∀ p, PairAt ds.length k p ∨ Single ds.length k p → W.gate p = expm (smul (rotated dt) (gen H k p)) := by
  obtain ⟨W, h1, h2, h3, h4⟩ := mkUnitary_spec expm H k hk dt
  have hd := gen_dims hH hk
  rw [hH.size] at h3 h4
  exact ⟨W, h1, ⟨hk, h2, h3, fun p hp => by rw [h4 p (Or.inl hp)]; exact hexp _ _ (hd.1 p hp),
    fun p hp => by rw [h4 p (Or.inr hp)]; exact hexp _ _ (hd.2 p hp)⟩, h4⟩

end MPS.Trotter
