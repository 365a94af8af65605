import Verif.ArnoldiLemmas4

/-!
# The Arnoldi iteration: the loop, and the beginning
-/

set_option linter.unusedSectionVars false
set_option linter.unusedSimpArgs false

namespace MPS.Arnoldi
open MPS Tensor Form Minim Obc
variable {ds : List Nat}

/-- an error zero means that the target has been reached -/
theorem exact_of_err {w : List ℂ} {Q : List (List (Tensor ℂ))} {sweeps Dmax : Nat} {normalize : Bool} {tolerance : ℝ} {o : Obc.Out ℂ}
    (ho : Reached ds w Q sweeps normalize Dmax tolerance o) (hn : o.norm ≠ 0) (he : o.err = 0) :
    ∀ s, IsCfg ds s → amp o.P0 s = superpose w Q s := by
  have hq : normSqOf ds (superpose w Q) ≠ 0 := by
    intro h0
    apply hn
    have hd := ho.best.dist
    rw [h0] at hd
    have h1 : 0 ≤ distTo ds (superpose w Q) o.P0 := sumCfg_nonneg _ _ fun s _ => by positivity
    have h2 : 0 ≤ normSq ds o.P0 := sumCfg_nonneg _ _ fun s _ => by positivity
    rw [ho.norm]; linarith
  have h1 : 0 ≤ distTo ds (superpose w Q) o.P0 := sumCfg_nonneg _ _ fun s _ => by positivity
  have h2 : 0 ≤ normSqOf ds (superpose w Q) := normSqOf_nonneg _ _
  have h3 := ho.err hq
  rw [he, relDist, eq_comm, Real.sqrt_eq_zero (by positivity), div_eq_zero_iff] at h3
  have h4 := h3.resolve_right hq
  intro s hs
  have := Props.sumCfg_eq_zero_nonneg ds _ (fun s => by positivity) h4 s hs
  have := pow_eq_zero_iff (two_ne_zero) |>.1 this
  exact (sub_eq_zero.1 (norm_eq_zero.1 this)).symm

theorem grow_spec {svd : Tensor ℂ → SvdRes ℂ} (hg : GoodSvd svd) (eps : ℝ) {dflt : ℝ} (hd0 : 0 < dflt) (single : Bool) (tolerance : ℝ)
    {inner : Nat} (hin : 0 < inner) {H psi : List (Tensor ℂ)} (hHW : WFO 1 H ds 1) (hH : Minim.Hermitian ds H) (hpos : 0 < ds.length) (Dmax : Nat)
    (halg : (single = true ∧ Dmax = 0) ∨ 2 ≤ ds.length) (nv : Nat) :
    ∀ todo ndx b, Inv ds H psi nv ndx b → 0 < ndx → ndx + todo = nv →
      ∃ b', grow svd eps dflt single tolerance inner H Dmax todo ndx b = some b' ∧ Krylov ds H psi nv b' ∧ (1 ≤ dflt → b.lost = 0 → b'.lost = 0)
  | 0, ndx, b, hI, h0, hn => by
    obtain rfl : ndx = nv := by omega
    exact ⟨b, rfl, hI.done h0, fun _ h => h⟩
  | todo + 1, ndx, b, hI, h0, hn => by
    have ew : ∀ Q ∈ (if ndx > 1 then [b.Hcur, b.states.getD (ndx - 1) [], b.states.getD (ndx - 2) []] else [b.Hcur, b.states.getD (ndx - 1) []]),
        WF 1 Q ds 1 := by
      intro Q hQ
      split_ifs at hQ with h
      · simp only [List.mem_cons, List.not_mem_nil, or_false] at hQ
        rcases hQ with rfl | rfl | rfl
        · exact hI.cur
        · exact hI.wf _ (by omega)
        · exact hI.wf _ (by omega)
      · simp only [List.mem_cons, List.not_mem_nil, or_false] at hQ
        rcases hQ with rfl | rfl
        · exact hI.cur
        · exact hI.wf _ (by omega)
    obtain ⟨o, e1, ho⟩ := Props.C80_any_form hg eps hd0 single tolerance (ds := ds)
      (w := if ndx > 1 then [1, -b.Heff.get [ndx - 1, ndx - 1], -b.Heff.get [ndx - 1, ndx - 2]] else [1, -b.Heff.get [ndx - 1, ndx - 1]])
      (Q := if ndx > 1 then [b.Hcur, b.states.getD (ndx - 1) [], b.states.getD (ndx - 2) []] else [b.Hcur, b.states.getD (ndx - 1) []])
      (by split_ifs <;> simp) ew hI.cur hpos (-1) hin true (2 * Dmax) (tol := defaultTol) (by unfold defaultTol; norm_num)
      (by rcases halg with h | h
          · exact Or.inl ⟨h.1, by omega⟩
          · exact Or.inr h)
    unfold grow
    simp only []
    rw [e1, Option.bind_some]
    by_cases hsmall : o.norm < 1 / 10 ^ 15
    · rw [if_pos hsmall]
      refine ⟨_, rfl, hI.close h0 (by omega) fun hb => ⟨o.P0, centreOf ds.length o.sense, ho.wf.2, by rw [← ho.norm]; exact hsmall, ?_⟩, fun _ h => h⟩
      exact Best.congr' ho.best fun s hs => target_eq hI h0 hb hs
    · rw [if_neg hsmall]
      have hnpos : 0 < o.norm := lt_of_lt_of_le (by norm_num) (not_lt.1 hsmall)
      set cur := (if o.sense * (-1) < 0 then canonicalForm svd eps dflt o.P (-1) else (o.P, 0)) with hcur
      have hc : WF 1 cur.1 ds 1 ∧ 0 ≤ cur.2 ∧ (1 ≤ dflt → cur.2 = 0) ∧ (cur.2 = 0 → ∀ s, IsCfg ds s → amp cur.1 s = amp o.P s) := by
        rw [hcur]
        split_ifs with h
        · exact canon_pack hg eps hd0 ho.wf.1 hpos
        · exact ⟨ho.wf.1, le_rfl, fun _ => rfl, fun _ s _ => rfl⟩
      obtain ⟨c1, c2, c3, c4⟩ := hc
      obtain ⟨χ, l2, a1, a2, a3, a4, a5⟩ := apply_pack hg eps hd0 hHW c1 hpos
      obtain ⟨N', H', f1, f2, f3, f4, f5, f6, f7⟩ := fill_spec (ds := ds) (states := b.states) (by rw [hI.len]; exact hI.wf) c1 a2 hpos hI.len b.N b.Heff
      rw [a1, Option.bind_some]
      simp only []
      rw [f1, Option.bind_some]
      have hnext := hI.next hH h0 (P := o.err = 0) c2 a3 c1 a2 (fun h => by rw [normSq_same (c4 h)]; exact (ho.unit rfl).2 hnpos.ne') a5 f2 f3 f4 f5 f6 f7
        (fun hb h1 he => ⟨Real.sqrt o.norm, Real.sqrt_pos.2 hnpos, fun s hs => by
          rw [c4 h1 s hs, (ho.unit rfl).1 s hs, exact_of_err ho hnpos.ne' he s hs, target_eq hI h0 hb hs, ← mul_assoc]
          have : ((Real.sqrt o.norm : ℝ) : ℂ) * ((1 / Real.sqrt o.norm : ℝ) : ℂ) = 1 := by
            rw [← Complex.ofReal_mul, mul_one_div_cancel (Real.sqrt_pos.2 hnpos).ne']; simp
          rw [show ((1 / Real.sqrt o.norm : ℝ) : ℂ) = RCLike.ofReal (1 / Real.sqrt o.norm) from rfl] at this
          rw [this, one_mul]⟩) (b.errors ++ [o.err / o.norm])
      obtain ⟨b', r1, r2, r3⟩ := grow_spec hg eps hd0 single tolerance hin hHW hH hpos Dmax halg nv todo (ndx + 1) _ hnext (by omega) (by omega)
      exact ⟨b', r1, r2, fun hd hb => r3 hd (by simp only; rw [hb, c3 hd, a4 hd]; norm_num)⟩

theorem basis_spec {svd : Tensor ℂ → SvdRes ℂ} (hg : GoodSvd svd) (eps : ℝ) {dflt : ℝ} (hd0 : 0 < dflt) (single : Bool) (tolerance : ℝ)
    {inner : Nat} (hin : 0 < inner) {H psi : List (Tensor ℂ)} (hHW : WFO 1 H ds 1) (hH : Minim.Hermitian ds H) (hpos : 0 < ds.length)
    (hpsi : WF 1 psi ds 1) (Dmax : Nat)
    (halg : (single = true ∧ Dmax = 0) ∨ 2 ≤ ds.length) {nv : Nat} (hnv : 0 < nv) :
    ∃ b, basis svd eps dflt single tolerance inner H nv psi Dmax = some b ∧ Krylov ds H psi nv b ∧ (1 ≤ dflt → b.lost = 0) := by
  obtain ⟨χ, l1, a1, a2, a3, a4, a5⟩ := apply_pack hg eps hd0 hHW hpsi hpos
  obtain ⟨n1, n2, n3, n4⟩ := normal_pack hg eps hd0 hpsi hpos
  unfold basis
  rw [a1, Option.bind_some]
  simp only []
  rw [scprod_pack hpsi a2 hpos, Option.bind_some]
  set x := normalForm svd eps dflt psi (-1) with hx
  set b0 : Basis := ⟨[x.1], setAt (zeros [nv, nv]) [0, 0] 1, setAt (zeros [nv, nv]) [0, 0] ((RCLike.re (MPS.inner ds (amp psi) (amp χ)) : ℝ) : ℂ), χ, [],
    l1 + x.2, True, false⟩ with hb0
  have split : Faithful ds psi b0 → (l1 = 0 ∧ x.2 = 0) ∧ normSq ds psi = 1 := by
    rintro ⟨h, h'⟩
    have : l1 + x.2 = 0 := h
    exact ⟨⟨by linarith, by linarith⟩, h'⟩
  have hvec : b0.vec 0 = amp x.1 := rfl
  have hsame : normSq ds psi = 1 → x.2 = 0 → ∀ s, IsCfg ds s → amp x.1 s = amp psi s := by
    intro hnorm h s hs
    rw [(n4 h (by rw [hnorm]; norm_num)).2 s hs, hnorm]
    simp
  have hI : Inv ds H psi nv 1 b0 := by
    refine ⟨rfl, ?_, ⟨rfl, rfl⟩, by show 0 ≤ l1 + x.2; linarith, rfl, a2, ?_, ?_, ?_, ?_, ?_, fun _ _ j hj => by omega⟩
    · intro j hj
      obtain rfl : j = 0 := by omega
      exact n1
    · intro h s hs
      obtain ⟨⟨g1, g2⟩, hnorm⟩ := split h
      show amp χ s = act ds H (b0.vec 0) s
      rw [a5 g1 s hs, hvec]
      exact act_congr (fun t ht => (hsame hnorm g2 t ht).symm) s
    · intro h s hs
      rw [hvec]; exact hsame (split h).2 (split h).1.2 s hs
    · intro h j hj
      obtain rfl : j = 0 := by omega
      exact (n4 (split h).1.2 (by rw [(split h).2]; norm_num)).1
    · intro h i hi j hj
      obtain rfl : i = 0 := by omega
      obtain rfl : j = 0 := by omega
      rw [hvec, inner_unit (n4 (split h).1.2 (by rw [(split h).2]; norm_num)).1]
      simp [hb0, setAt]
    · intro h i hi j hj
      obtain rfl : i = 0 := by omega
      obtain rfl : j = 0 := by omega
      obtain ⟨⟨g1, g2⟩, hnorm⟩ := split h
      rw [hvec, inner_congr (hsame hnorm g2) (fun s _ => act_congr (hsame hnorm g2) s)]
      have : b0.Heff.get [0, 0] = ((RCLike.re (MPS.inner ds (amp psi) (amp χ)) : ℝ) : ℂ) := by simp [hb0, setAt]
      rw [this, inner_congr (fun _ _ => rfl) (a5 g1)]
      exact inner_real (by rw [Props.inner_star', ← inner_act hH])
  obtain ⟨b', r1, r2, r3⟩ := grow_spec hg eps hd0 single tolerance hin hHW hH hpos Dmax halg nv (nv - 1) 1 b0 hI (by omega) (by omega)
  refine ⟨b', r1, r2, fun hd => r3 hd ?_⟩
  show l1 + x.2 = 0
  rw [a4 hd, n3 hd]; norm_num

end MPS.Arnoldi
