import Verif.ITebdShapes
import Verif.ITebdEvolveSpec

/-!
# C63, C90: imaginary time evolution of infinite states
-/

set_option linter.unusedSectionVars false
set_option linter.unusedSimpArgs false

namespace MPS.Props
open MPS Tensor ITebd
variable {K : Type} [RCLike K]

/-- both sublattices evolve by `dt` in every step, and but for the first order formula the step is symmetric -/
theorem C90_fractions (dt : ℝ) (method : Int) :
    (((trotter dt method).filter fun x => x.2 = 0).map Prod.fst).sum = dt ∧ (((trotter dt method).filter fun x => x.2 = 1).map Prod.fst).sum = dt ∧
    (∀ x ∈ trotter dt method, x.2 = 0 ∨ x.2 = 1) ∧ (method ≠ 0 → (trotter dt method).reverse = trotter dt method) := by
  unfold trotter
  split_ifs with h0 h1
  · refine ⟨by simp, by simp, by simp, fun h => absurd h0 h⟩
  · refine ⟨by simp, by simp, by simp, fun _ => rfl⟩
  · refine ⟨?_, ?_, by simp, fun _ => rfl⟩
    · simp; ring
    · simp; ring

theorem step_trotter (L : Lib K) (H : Tensor K) (dt tol : ℝ) (M : Int) (method : Int) (psi : State K) :
    itimeStep L H dt tol M method psi = trotterStep L H dt tol M method psi := by
  unfold itimeStep trotterStep plan trotter
  by_cases h0 : method = 0
  · subst h0
    simp [gates, List.foldlM]
  · by_cases h1 : method = 1
    · subst h1
      have : -dt / 2 = -(dt / 2) := by ring
      simp [gates, List.foldlM, this]
    · have f0 : -dt * frParam 0 = -(0.67560359597983 * dt) := by simp [frParam]; ring
      have f1 : -dt * frParam 1 = -(2 * 0.67560359597983 * dt) := by simp [frParam]; ring
      have f2 : -dt * frParam 2 = -((1 / 2 - 0.67560359597983) * dt) := by simp [frParam]; ring
      have f3 : -dt * frParam 3 = -((1 - 4 * 0.67560359597983) * dt) := by simp [frParam]; ring
      simp only [gates, h0, h1, or_self, if_false, List.foldlM, f0, f1, f2, f3]

/-- the sizes along a list of gates -/
theorem gates_shape {L : Lib K} (hg : GoodSvd L.svd) (hsym : GoodEigSym L.eigSym) (hd : 0 ≤ L.dflt) {tol : ℝ} (ht : 0 < effTol L.dflt tol) (M : Int)
    {d : Nat} {H : Tensor K} (hx : ∀ c : K, (L.expm (smul c H)).dims = [d * d, d * d]) (l : List (ℝ × Int)) :
    ∀ {psi : State K}, Ok psi → ∀ {D E : Nat}, Dims psi D d E d →
      ∃ phi D' E', l.foldlM (fun psi x => applyOperator L psi (L.expm (smul ((-x.1 : ℝ) : K) H)) x.2 tol M) psi = some phi ∧ Ok phi ∧ Dims phi D' d E' d ∧
        (0 < M → ((∃ x ∈ l, x.2 % 2 = 0) ∨ (E : Int) ≤ M) → (E' : Int) ≤ M) ∧ (0 < M → ((∃ x ∈ l, x.2 % 2 = 1) ∨ (D : Int) ≤ M) → (D' : Int) ≤ M) := by
  induction l with
  | nil =>
    intro psi hok D E h
    exact ⟨psi, D, E, rfl, hok, h, fun _ h => by simpa using h, fun _ h => by simpa using h⟩
  | cons x l ih =>
    intro psi hok D E h
    obtain ⟨phi, D1, E1, h1, h2, h3, h4, h5⟩ := apply_shape hg hsym hd ht M hok h (hx ((-x.1 : ℝ) : K)) x.2
    obtain ⟨chi, D2, E2, g1, g2, g3, g4, g5⟩ := ih h2 h3
    refine ⟨chi, D2, E2, by rw [List.foldlM_cons, h1]; exact g1, g2, g3, fun hM hc => g4 hM ?_, fun hM hc => g5 hM ?_⟩
    · by_cases hl : ∃ x ∈ l, x.2 % 2 = 0
      · exact Or.inl hl
      · right
        rcases Int.emod_two_eq_zero_or_one x.2 with hs | hs
        · exact (h4 hs).2 hM
        · rw [(h5 hs).1]
          rcases hc with ⟨y, hy, hy'⟩ | hc
          · rcases List.mem_cons.1 hy with rfl | hy
            · omega
            · exact absurd ⟨y, hy, hy'⟩ hl
          · exact hc
    · by_cases hl : ∃ x ∈ l, x.2 % 2 = 1
      · exact Or.inl hl
      · right
        rcases Int.emod_two_eq_zero_or_one x.2 with hs | hs
        · rw [(h4 hs).1]
          rcases hc with ⟨y, hy, hy'⟩ | hc
          · rcases List.mem_cons.1 hy with rfl | hy
            · omega
            · exact absurd ⟨y, hy, hy'⟩ hl
          · exact hc
        · exact (h5 hs).2 hM

/-- a state of two sites of dimension `d` -/
def Chain2 (d : Nat) (psi : State K) : Prop := Ok psi ∧ ∃ D E, Dims psi D d E d

/-- both bonds are at most `M` -/
def BondsAtMost (psi : State K) (M : Int) : Prop := ∀ k, (((psi.matrix k).dim 0 : Nat) : Int) ≤ M

theorem step_shape {L : Lib K} (hg : GoodSvd L.svd) (hsym : GoodEigSym L.eigSym) (hd : 0 ≤ L.dflt) {tol : ℝ} (ht : 0 < effTol L.dflt tol) (M : Int)
    {d : Nat} {H : Tensor K} (hx : ∀ c : K, (L.expm (smul c H)).dims = [d * d, d * d]) (dt : ℝ) (method : Int) {psi : State K} (h : Chain2 d psi) :
    ∃ phi, trotterStep L H dt tol M method psi = some phi ∧ Chain2 d phi ∧ (0 < M → BondsAtMost phi M) := by
  obtain ⟨hok, D, E, h⟩ := h
  obtain ⟨phi, D', E', h1, h2, h3, h4, h5⟩ := gates_shape hg hsym hd ht M hx (trotter dt method) hok h
  refine ⟨phi, h1, ⟨h2, D', E', h3⟩, fun hM k => ?_⟩
  have e0 : ∃ x ∈ trotter dt method, x.2 % 2 = 0 := by
    unfold trotter; split_ifs <;> exact ⟨_, List.mem_cons_self, rfl⟩
  have e1 : ∃ x ∈ trotter dt method, x.2 % 2 = 1 := by
    unfold trotter; split_ifs <;> exact ⟨_, List.mem_cons_of_mem _ List.mem_cons_self, rfl⟩
  unfold State.matrix
  split
  · rw [dim0_of h3.B]; exact h4 hM (Or.inl e0)
  · rw [dim0_of h3.A]; exact h5 hM (Or.inl e1)

theorem canon_chain {L : Lib K} (hg : GoodSvd L.svd) (hsym : GoodEigSym L.eigSym) {d : Nat} {psi : State K} (h : Chain2 d psi) (M : Int) :
    Chain2 d (canonForm L psi) ∧ (BondsAtMost psi M → BondsAtMost (canonForm L psi) M) := by
  obtain ⟨hok, D, E, h⟩ := h
  obtain ⟨s1, s2, -⟩ := canon_shape hg hsym hok h
  refine ⟨⟨s2, D, E, s1⟩, fun hb k => ?_⟩
  have := hb k
  unfold State.matrix at this ⊢
  split
  · rename_i hk
    rw [if_pos hk, dim0_of h.B] at this
    rw [dim0_of s1.B]; exact this
  · rename_i hk
    rw [if_neg hk, dim0_of h.A] at this
    rw [dim0_of s1.A]; exact this

section
variable (L : Lib K) (H : Tensor K) (dt tol : ℝ) (M : Int) (method : Int)

/-- one step as a function -/
noncomputable def stepF (psi : State K) : State K := (trotterStep L H dt tol M method psi).getD psi

theorem inner_eq {P : State K → Prop} (hP : ∀ psi, P psi → ∃ phi, trotterStep L H dt tol M method psi = some phi ∧ P phi) (n : Nat) :
    ∀ (psi : State K) (t : ℝ), P psi → itimeInner L H dt tol M method n (psi, t) = some ((stepF L H dt tol M method)^[n] psi, t + n * dt) ∧
      P ((stepF L H dt tol M method)^[n] psi) := by
  induction n with
  | zero => intro psi t h; exact ⟨by simp [itimeInner], h⟩
  | succ n ih =>
    intro psi t h
    obtain ⟨phi, h1, h2⟩ := hP psi h
    have hf : stepF L H dt tol M method psi = phi := by unfold stepF; rw [h1]; rfl
    obtain ⟨i1, i2⟩ := ih phi (t + dt) h2
    refine ⟨?_, ?_⟩
    · rw [itimeInner, step_trotter, h1, Function.iterate_succ_apply, hf]
      show itimeInner L H dt tol M method n (phi, t + dt) = _
      rw [i1]
      congr 2
      push_cast; ring
    · rw [Function.iterate_succ_apply, hf]; exact i2

/-- `deltan` steps and a canonical form -/
noncomputable def phaseF (deltan : Nat) (psi : State K) : State K := canonForm L ((stepF L H dt tol M method)^[deltan] psi)

theorem phases_eq {P : State K → Prop} (hP : ∀ psi, P psi → ∃ phi, trotterStep L H dt tol M method psi = some phi ∧ P phi)
    (hC : ∀ psi, P psi → P (canonForm L psi)) (deltan n : Nat) : ∀ (out : Evolution K) (t : ℝ), P out.psi →
    ∃ out', (itimePhases L H dt tol M method deltan n (out, t)).map Prod.fst = some out' ∧
      out'.psi = (phaseF L H dt tol M method deltan)^[n] out.psi ∧ P out'.psi ∧
      out'.energies = out.energies ++ (List.range n).map (fun k : Nat => RCLike.re (ITebd.energy (canonForm L) ((phaseF L H dt tol M method deltan)^[k + 1] out.psi) H)) ∧
      out'.entropies = out.entropies ++ (List.range n).map (fun k : Nat => entropyTotal L ((phaseF L H dt tol M method deltan)^[k + 1] out.psi)) ∧
      out'.times = out.times ++ (List.range n).map (fun k : Nat => t + (k + 1) * deltan * dt) := by
  induction n with
  | zero => intro out t h; exact ⟨out, rfl, rfl, h, by simp, by simp, by simp⟩
  | succ n ih =>
    intro out t h
    obtain ⟨i1, i2⟩ := inner_eq L H dt tol M method hP deltan out.psi t h
    set chi := phaseF L H dt tol M method deltan out.psi with hchi
    have hPchi : P chi := hC _ i2
    obtain ⟨out', o1, o2, o3, o4, o5, o6⟩ := ih (report L H out chi (t + deltan * dt)) (t + deltan * dt) hPchi
    refine ⟨out', ?_, ?_, o3, ?_, ?_, ?_⟩
    · rw [itimePhases, i1]; exact o1
    · rw [o2, Function.iterate_succ_apply]; rfl
    · rw [o4, List.range_succ_eq_map, List.map_cons, List.map_map]
      show (out.energies ++ [_]) ++ _ = _
      rw [List.append_assoc]; rfl
    · rw [o5, List.range_succ_eq_map, List.map_cons, List.map_map]
      show (out.entropies ++ [_]) ++ _ = _
      rw [List.append_assoc]; rfl
    · rw [o6, List.range_succ_eq_map, List.map_cons, List.map_map]
      show (out.times ++ [_]) ++ _ = _
      rw [List.append_assoc]
      congr 1
      rw [List.singleton_append]
      congr 1
      · push_cast; ring
      · refine List.map_congr_left fun k _ => ?_
        simp only [Function.comp]; push_cast; ring

end

/-- what `evolve_itime` does: it runs `⌈nsteps/deltan⌉ * deltan` steps -/
theorem evolve_core {L : Lib K} (hg : GoodSvd L.svd) (hsym : GoodEigSym L.eigSym) (hd : 0 ≤ L.dflt) {tol : ℝ} (ht : 0 < effTol L.dflt tol) (M : Int)
    {d : Nat} {H : Tensor K} (hx : ∀ c : K, (L.expm (smul c H)).dims = [d * d, d * d]) (dt : ℝ) (method : Int) {start : State K} (hs : Chain2 d start)
    (nsteps : Nat) {deltan : Nat} (hdel : 0 < deltan) {m : Nat} (hm : m = (nsteps + deltan - 1) / deltan) :
    ∃ out psi, evolveItime L start H dt nsteps tol M deltan method = some out ∧ Evolves L H dt tol M method deltan (m * deltan) start psi ∧
      out.psi = psi (m * deltan) ∧ Chain2 d out.psi ∧ (0 < nsteps → 0 < M → BondsAtMost out.psi M) ∧
      out.energies = (List.range (m + 1)).map (fun k : Nat => RCLike.re (ITebd.energy (canonForm L) (psi (k * deltan)) H)) ∧
      out.entropies = (List.range (m + 1)).map (fun k : Nat => entropyTotal L (psi (k * deltan))) ∧
      out.times = (List.range (m + 1)).map (fun k : Nat => (k * deltan * dt : ℝ)) := by
  have hP : ∀ psi : State K, Chain2 d psi → ∃ phi, trotterStep L H dt tol M method psi = some phi ∧ Chain2 d phi := by
    intro psi h
    obtain ⟨phi, h1, h2, -⟩ := step_shape hg hsym hd ht M hx dt method h
    exact ⟨phi, h1, h2⟩
  have hC : ∀ psi : State K, Chain2 d psi → Chain2 d (canonForm L psi) := fun psi h => (canon_chain hg hsym h M).1
  set f := stepF L H dt tol M method with hf
  set F := phaseF L H dt tol M method deltan with hF
  have hfs : ∀ psi : State K, Chain2 d psi → trotterStep L H dt tol M method psi = some (f psi) ∧ Chain2 d (f psi) ∧ (0 < M → BondsAtMost (f psi) M) := by
    intro psi h
    obtain ⟨phi, h1, h2, h3⟩ := step_shape hg hsym hd ht M hx dt method h
    have : f psi = phi := by rw [hf]; unfold stepF; rw [h1]; rfl
    rw [this]; exact ⟨h1, h2, h3⟩
  have hfit : ∀ n (psi : State K), Chain2 d psi → Chain2 d (f^[n] psi) := by
    intro n
    induction n with
    | zero => intro psi h; exact h
    | succ n ih => intro psi h; rw [Function.iterate_succ_apply]; exact ih _ (hfs psi h).2.1
  have hFit : ∀ n (psi : State K), Chain2 d psi → Chain2 d (F^[n] psi) := by
    intro n
    induction n with
    | zero => intro psi h; exact h
    | succ n ih => intro psi h; rw [Function.iterate_succ_apply]; exact ih _ (hC _ (hfit deltan psi h))
  have hstart := hC start hs
  obtain ⟨out, o1, o2, o3, o4, o5, o6⟩ := phases_eq L H dt tol M method hP hC deltan m
    (report L H ⟨canonForm L start, [], [], []⟩ (canonForm L start) 0) 0 hstart
  have hrep : (report L H ⟨canonForm L start, [], [], []⟩ (canonForm L start) 0).psi = canonForm L start := rfl
  rw [hrep] at o2 o4 o5
  have hlist : ∀ {α : Type} (g : Nat → α), (List.range (m + 1)).map g = [g 0] ++ (List.range m).map fun k => g (k + 1) := by
    intro α g
    rw [List.range_succ_eq_map, List.map_cons, List.map_map]; rfl
  set psi : Nat → State K := fun j => f^[j % deltan] (F^[j / deltan] (canonForm L start)) with hpsi
  have hpk : ∀ k, psi (k * deltan) = F^[k] (canonForm L start) := by
    intro k
    rw [hpsi]; beta_reduce
    rw [Nat.mul_mod_left, Nat.mul_div_cancel k hdel]; rfl
  refine ⟨out, psi, ?_, ⟨by simpa using hpk 0, fun j hj => ?_⟩, ?_, o3, ?_, ?_, ?_, ?_⟩
  · unfold evolveItime
    simp only
    rw [if_neg (by omega), ← hm]
    exact o1
  · have hc : Chain2 d (psi j) := hfit _ _ (hFit _ _ hstart)
    refine ⟨f (psi j), (hfs _ hc).1, ?_⟩
    have hmod := Nat.mod_add_div j deltan
    have hlt := Nat.mod_lt j hdel
    have hit : f (psi j) = f^[j % deltan + 1] (F^[j / deltan] (canonForm L start)) := by
      rw [Function.iterate_succ_apply']
    split
    · rename_i hdv
      obtain ⟨q, hq⟩ := hdv
      have hjm : j % deltan + 1 = deltan := by
        have h1 : (j + 1) % deltan = 0 := by rw [hq]; exact Nat.mul_mod_right _ _
        by_contra hne
        have : (j + 1) % deltan = j % deltan + 1 := by
          rw [Nat.add_mod, Nat.mod_eq_of_lt (show j % deltan + 1 % deltan < deltan from ?_)]
          · rw [Nat.mod_eq_of_lt (show 1 < deltan by omega)]
          · rw [Nat.mod_eq_of_lt (show 1 < deltan by omega)]; omega
        omega
      have hjd : j + 1 = (j / deltan + 1) * deltan := by
        have : (j / deltan + 1) * deltan = deltan * (j / deltan) + deltan := by ring
        omega
      rw [hit, hjm, hjd, hpk, Function.iterate_succ_apply']
      rfl
    · rename_i hdv
      have hjm : j % deltan + 1 ≠ deltan := by
        intro h
        exact hdv ⟨j / deltan + 1, by rw [Nat.mul_add, Nat.mul_one]; omega⟩
      have e1 : (j + 1) % deltan = j % deltan + 1 := by
        conv_lhs => rw [← hmod, show j % deltan + deltan * (j / deltan) + 1 = j % deltan + 1 + deltan * (j / deltan) by ring, Nat.add_mul_mod_self_left]
        exact Nat.mod_eq_of_lt (by omega)
      have e2 : (j + 1) / deltan = j / deltan := by
        conv_lhs => rw [← hmod, show j % deltan + deltan * (j / deltan) + 1 = j % deltan + 1 + deltan * (j / deltan) by ring, Nat.add_mul_div_left _ _ hdel]
        rw [Nat.div_eq_of_lt (by omega), zero_add]
      rw [hit]
      show f^[(j + 1) % deltan] (F^[(j + 1) / deltan] _) = _
      rw [e1, e2]
  · rw [o2, hpk]
  · intro hn hM
    have hm1 : 0 < m := by
      rw [hm]; exact Nat.div_pos (by omega) hdel
    obtain ⟨m', rfl⟩ := Nat.exists_eq_succ_of_ne_zero hm1.ne'
    obtain ⟨e', rfl⟩ := Nat.exists_eq_succ_of_ne_zero hdel.ne'
    rw [o2, Function.iterate_succ_apply']
    have hc := hfit e' _ (hFit m' _ hstart)
    obtain ⟨h1, h2, h3⟩ := hfs _ hc
    show BondsAtMost (canonForm L (f^[e' + 1] _)) M
    rw [Function.iterate_succ_apply']
    exact (canon_chain hg hsym h2 M).2 (h3 hM)
  · rw [o4, hlist]
    simp only [hpk]
    rfl
  · rw [o5, hlist]
    simp only [hpk]
    rfl
  · rw [o6, hlist]
    refine congrArg₂ (· ++ ·) (by simp [report]) (List.map_congr_left fun k _ => ?_)
    push_cast; ring

/-- **C63**, what is true of it for all arguments: `⌈nsteps/deltan⌉ * deltan` steps are run (`deltan = 0` means 1).
Missing: `nsteps` steps, see `C63_violated`. -/
theorem C63_evolve_partial {L : Lib K} (hg : GoodSvd L.svd) (hsym : GoodEigSym L.eigSym) (hd : 0 ≤ L.dflt) {tol : ℝ} (ht : 0 < effTol L.dflt tol) (M : Int)
    {d : Nat} {H : Tensor K} (hx : ∀ c : K, (L.expm (smul c H)).dims = [d * d, d * d]) (dt : ℝ) (method : Int) {start : State K} (hs : Ok start)
    (h0 : (start.matrix 0).dim 1 = d) (h1 : (start.matrix 1).dim 1 = d) (nsteps deltan : Nat) :
    let δ := if deltan = 0 then 1 else deltan
    let m := (nsteps + δ - 1) / δ
    ∃ out psi, evolveItime L start H dt nsteps tol M deltan method = some out ∧ Evolves L H dt tol M method δ (m * δ) start psi ∧
      out.psi = psi (m * δ) ∧ Ok out.psi ∧ out.psi.canonical = true ∧ (0 < nsteps → 0 < M → BondsAtMost out.psi M) ∧
      out.energies = (List.range (m + 1)).map (fun k : Nat => RCLike.re (ITebd.energy (canonForm L) (psi (k * δ)) H)) ∧
      out.entropies = (List.range (m + 1)).map (fun k : Nat => entropyTotal L (psi (k * δ))) ∧
      out.times = (List.range (m + 1)).map (fun k : Nat => (k * δ * dt : ℝ)) := by
  intro δ m
  have hchain : Chain2 d start := by
    have := hs.dims4
    have e0 : start.A.dim 1 = d := h0
    have e1 : start.B.dim 1 = d := h1
    rw [e0, e1] at this
    exact ⟨hs, _, _, this⟩
  have hδ : 0 < δ := by show 0 < (if deltan = 0 then 1 else deltan); split <;> omega
  obtain ⟨out, psi, o1, o2, o3, o4, o5, o6, o7, o8⟩ := evolve_core hg hsym hd ht M hx dt method hchain nsteps hδ (m := m) rfl
  have hev : evolveItime L start H dt nsteps tol M deltan method = evolveItime L start H dt nsteps tol M δ method := by
    unfold evolveItime
    simp only
    rw [if_neg (show ¬ δ = 0 by omega)]
  refine ⟨out, psi, by rw [hev]; exact o1, o2, o3, o4.1, ?_, o5, o6, o7, o8⟩
  rw [o3]
  by_cases hm : m * δ = 0
  · rw [hm, o2.1]; rfl
  · obtain ⟨j, hj⟩ := Nat.exists_eq_succ_of_ne_zero hm
    obtain ⟨phi, -, h2⟩ := o2.2 j (by omega)
    rw [hj, show j.succ = j + 1 from rfl, h2, if_pos ⟨m, by rw [show j + 1 = j.succ from rfl, ← hj, Nat.mul_comm]⟩]
    rfl

/-- **C90**: if `deltan` divides `nsteps`, exactly `nsteps` steps of length `dt` are run, with a report at the beginning and after
every `deltan` of them; the result is canonical and its bonds are at most `max_dim` -/
theorem C90_evolve_itime {L : Lib K} (hg : GoodSvd L.svd) (hsym : GoodEigSym L.eigSym) (hd : 0 ≤ L.dflt) {tol : ℝ} (ht : 0 < effTol L.dflt tol) (M : Int)
    {d : Nat} {H : Tensor K} (hx : ∀ c : K, (L.expm (smul c H)).dims = [d * d, d * d]) (dt : ℝ) (method : Int) {start : State K} (hs : Ok start)
    (h0 : (start.matrix 0).dim 1 = d) (h1 : (start.matrix 1).dim 1 = d) (m deltan : Nat) (hdel : 0 < deltan) :
    ∃ out psi, evolveItime L start H dt (m * deltan) tol M deltan method = some out ∧ Evolves L H dt tol M method deltan (m * deltan) start psi ∧
      out.psi = psi (m * deltan) ∧ Ok out.psi ∧ out.psi.canonical = true ∧ (0 < m → 0 < M → BondsAtMost out.psi M) ∧
      out.energies = (List.range (m + 1)).map (fun k : Nat => RCLike.re (ITebd.energy (canonForm L) (psi (k * deltan)) H)) ∧
      out.entropies = (List.range (m + 1)).map (fun k : Nat => entropyTotal L (psi (k * deltan))) ∧
      out.times = (List.range (m + 1)).map (fun k : Nat => (k * deltan * dt : ℝ)) := by
  have key := C63_evolve_partial hg hsym hd ht M hx dt method hs h0 h1 (m * deltan) deltan
  rw [if_neg (show ¬ deltan = 0 by omega)] at key
  dsimp only at key
  have hm : (m * deltan + deltan - 1) / deltan = m := by
    rw [show m * deltan + deltan - 1 = (deltan - 1) + deltan * m by rw [Nat.mul_comm]; omega, Nat.add_mul_div_left _ _ hdel,
      Nat.div_eq_of_lt (by omega), zero_add]
  rw [hm] at key
  obtain ⟨out, psi, o1, o2, o3, o4, o5, o6, o7, o8, o9⟩ := key
  exact ⟨out, psi, o1, o2, o3, o4, o5, fun h => o6 (Nat.mul_pos h hdel), o7, o8, o9⟩

/-- **C63**, what is false: asked for one step with reports after every two steps, `evolve_itime` runs two steps, for every state -/
theorem C63_violated {L : Lib K} (hg : GoodSvd L.svd) (hsym : GoodEigSym L.eigSym) (hd : 0 ≤ L.dflt) {tol : ℝ} (ht : 0 < effTol L.dflt tol) (M : Int)
    {d : Nat} {H : Tensor K} (hx : ∀ c : K, (L.expm (smul c H)).dims = [d * d, d * d]) (dt : ℝ) (hdt : dt ≠ 0) (method : Int) {start : State K} (hs : Ok start)
    (h0 : (start.matrix 0).dim 1 = d) (h1 : (start.matrix 1).dim 1 = d) :
    ∃ out psi, evolveItime L start H dt 1 tol M 2 method = some out ∧ Evolves L H dt tol M method 2 2 start psi ∧ out.psi = psi 2 ∧
      out.times = [0, 2 * dt] ∧ out.times ≠ [0, dt] := by
  obtain ⟨out, psi, o1, o2, o3, o4, o5, o6, o7, o8, o9⟩ := C63_evolve_partial hg hsym hd ht M hx dt method hs h0 h1 1 2
  have : out.times = [0, 2 * dt] := by
    rw [o9]; simp [List.range_succ]
  refine ⟨out, psi, o1, o2, o3, this, ?_⟩
  rw [this]
  intro h
  have : 2 * dt = dt := by simpa using h
  exact hdt (by linarith)

end MPS.Props
