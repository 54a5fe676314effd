import Verif.Props.Ring
import Verif.Props.CompositeMaster
import Verif.Props.InteractionsMaster
import Mathlib.Analysis.ODE.ExistUnique

/-!
# Two identical particles in a cavity: C132
-/

namespace CppQED.ScriptSys
open CppQED.Elem CppQED.Tridiag CppQED.ModeEl CppQED.Spec CppQED.Composite CppQED.Interactions CppQED.PTrace CppQED.Slice
open CppQED.MII (Idx)
open CppQED.ParticleEl (ModeFunction isComplex potE lightShift expE)
open ComplexConjugate

/-! ## Exchange -/

theorem exchange_q (i : Idx) : q (exchange i) 0 = q i 0 ∧ q (exchange i) 1 = q i 2 ∧ q (exchange i) 2 = q i 1 := ⟨rfl, rfl, rfl⟩

theorem inBox3 {d0 d1 d2 : ℕ} {i : Idx} : InBox (lower [d0, d1, d2]) (upper [d0, d1, d2]) i ↔
    ∃ a b c : ℤ, i = [a, b, c] ∧ (0 ≤ a ∧ a ≤ d0 - 1) ∧ (0 ≤ b ∧ b ≤ d1 - 1) ∧ (0 ≤ c ∧ c ≤ d2 - 1) := by
  constructor
  · rintro ⟨h1, h2⟩
    match i, h1 with
    | [a, b, c], _ => exact ⟨a, b, c, rfl, by simpa [lower, upper] using h2 0 (by simp [lower]), by simpa [lower, upper] using h2 1 (by simp [lower]), by simpa [lower, upper] using h2 2 (by simp [lower])⟩
  · rintro ⟨a, b, c, rfl, h1, h2, h3⟩
    refine ⟨by simp [lower], fun j hj => ?_⟩
    have : j < 3 := by simpa [lower] using hj
    rcases j with - | - | - | j
    · simpa [lower, upper] using h1
    · simpa [lower, upper] using h2
    · simpa [lower, upper] using h3
    · omega

theorem exchange_box {d0 d1 : ℕ} {i : Idx} (h : InBox (lower [d0, d1, d1]) (upper [d0, d1, d1]) i) : InBox (lower [d0, d1, d1]) (upper [d0, d1, d1]) (exchange i) := by
  obtain ⟨a, b, c, rfl, h1, h2, h3⟩ := inBox3.1 h
  exact inBox3.2 ⟨a, c, b, rfl, h1, h3, h2⟩

theorem exchange_exchange {d0 d1 d2 : ℕ} {i : Idx} (h : InBox (lower [d0, d1, d2]) (upper [d0, d1, d2]) i) : exchange (exchange i) = i := by
  obtain ⟨a, b, c, rfl, -⟩ := inBox3.1 h
  rfl

theorem sum_exchange (d0 d1 : ℕ) (f : Idx → ℂ) :
    ∑ i ∈ boxFinset (lower [d0, d1, d1]) (upper [d0, d1, d1]), f (exchange i) = ∑ i ∈ boxFinset (lower [d0, d1, d1]) (upper [d0, d1, d1]), f i := by
  have hl := lower_length [d0, d1, d1]
  refine Finset.sum_nbij' exchange exchange ?_ ?_ ?_ ?_ ?_
  · intro i hi; exact (mem_boxFinset _ _ _ hl).2 (exchange_box ((mem_boxFinset _ _ _ hl).1 hi))
  · intro i hi; exact (mem_boxFinset _ _ _ hl).2 (exchange_box ((mem_boxFinset _ _ _ hl).1 hi))
  · intro i hi; exact exchange_exchange ((mem_boxFinset _ _ _ hl).1 hi)
  · intro i hi; exact exchange_exchange ((mem_boxFinset _ _ _ hl).1 hi)
  · intro i _; rfl

/-- An operator which does not change if the particles are exchanged. -/
def Invariant (H : Idx → Idx → ℂ) : Prop := ∀ i j, H (exchange i) (exchange j) = H i j

theorem action_exchange {d0 d1 : ℕ} {H : Idx → Idx → ℂ} (hH : Invariant H) {σ : ℂ} {psi : Idx → ℂ} (h : HasSymmetry (lower [d0, d1, d1]) (upper [d0, d1, d1]) σ psi) :
    HasSymmetry (lower [d0, d1, d1]) (upper [d0, d1, d1]) σ (matAction (lower [d0, d1, d1]) (upper [d0, d1, d1]) H psi) := by
  intro i _
  unfold matAction
  rw [← sum_exchange, Finset.mul_sum]
  refine Finset.sum_congr rfl fun j hj => ?_
  rw [hH, h j ((mem_boxFinset _ _ _ (lower_length _)).1 hj)]
  ring

/-- The solution of a linear differential equation on the array which vanishes once vanishes always. -/
theorem linear_zero {lb ub : Idx} (hl : ub.length = lb.length) (H : Idx → Idx → ℂ) (D : ℝ → Idx → ℂ) (hD : ∀ t i, InBox lb ub i → HasDerivAt (fun s => D s i) (matAction lb ub H (D t) i) t)
    (t0 : ℝ) (h0 : ∀ i, InBox lb ub i → D t0 i = 0) (t : ℝ) (i : Idx) (hi : InBox lb ub i) : D t i = 0 := by
  classical
  let B := {i // i ∈ boxFinset lb ub}
  let f : ℝ → B → ℂ := fun s k => D s k
  let L : (B → ℂ) →ₗ[ℂ] (B → ℂ) := (Matrix.of fun i j : B => H i j).mulVecLin
  let L' := LinearMap.toContinuousLinearMap L
  have hf : ∀ s, HasDerivAt f (L' (f s)) s := by
    intro s
    rw [hasDerivAt_pi]
    intro k
    refine (hD s k ((mem_boxFinset _ _ _ hl).1 k.2)).congr_deriv ?_
    change _ = ∑ j : B, H k j * D s j
    rw [Finset.sum_coe_sort (boxFinset lb ub) fun j => H k j * D s j]
    rfl
  have h := ODE_solution_unique_univ (v := fun _ x => L' x) (s := fun _ => Set.univ) (f := f) (g := fun _ => 0) (K := ‖L'‖₊) (t₀ := t0) (fun _ => L'.lipschitz.lipschitzOnWith)
    (fun s => ⟨hf s, trivial⟩) (fun s => ⟨by simpa using hasDerivAt_const s (0 : B → ℂ), trivial⟩) (by funext k; exact h0 k ((mem_boxFinset _ _ _ hl).1 k.2))
  exact congrFun (congrFun h t) ⟨i, (mem_boxFinset _ _ _ hl).2 hi⟩

theorem evolution_exchange {c : Comp} {d0 d1 : ℕ} (hlb : c.lb = lower [d0, d1, d1]) (hub : c.ub = upper [d0, d1, d1]) {H : Idx → Idx → ℂ} (hc : CompSimulates c H) (hH : Invariant H) {σ : ℂ} (t0 t : ℝ)
    (psi : ℝ → Idx → ℂ) (hpsi : ∀ t, ∀ i, InBox c.lb c.ub i → HasDerivAt (fun s => psi s i) (c.addContribution t t0 (psi t) (fun _ => 0) i) t) (h : HasSymmetry c.lb c.ub σ (psi t0)) :
    HasSymmetry c.lb c.ub σ (c.actWithU t t0 (psi t)) := by
  have hs := fun t i hi => hc t0 t psi (hpsi t) i hi
  rw [hlb, hub] at h hs ⊢
  intro i hi
  have := linear_zero (lower_length [d0, d1, d1]) H (fun s i => c.actWithU s t0 (psi s) (exchange i) - σ * c.actWithU s t0 (psi s) i) ?_ t0 ?_ t i hi
  · exact sub_eq_zero.1 this
  · intro s j hj
    refine (((hs s _ (exchange_box hj)).2).sub (((hs s _ hj).2).const_mul σ)).congr_deriv ?_
    unfold matAction
    rw [← sum_exchange, Finset.mul_sum, ← Finset.sum_sub_distrib]
    refine Finset.sum_congr rfl fun k _ => ?_
    rw [hH]
    ring
  · intro j hj
    rw [(hs t0 _ (exchange_box hj)).1, (hs t0 _ hj).1, h j hj, sub_self]

/-! ## The system of the script -/

theorem twoParticlesH_invariant (pm : ModeEl.Pars) (pp : ParticleEl.Pars) (U : ℝ) : Invariant (twoParticlesH pm pp U) := by
  intro i j
  unfold twoParticlesH
  simp only [tensor3, exchange_q]
  ring

/-- The frequencies of the constituents. -/
noncomputable def twoW (pm : ModeEl.Pars) (pp : ParticleEl.Pars) (k : ℕ) : ℕ → ℂ := if k = 0 then (modePtr pm .ip).w else (part pp .ip).m

/-- The parts of the system of the script. -/
theorem two_of (pm : ModeEl.Pars) (hm : Usable pm) (pp : ParticleEl.Pars) (hp : pp.fin < 63) (hn : pp.kPart ≤ 2 ^ pp.fin) (hk : pp.kPart ≠ 0) (U : ℝ) (hUV : 0 ≤ U * pp.vClass) :
    ∃ e0 e1 ia, twoParticlesOneMode pm pp U = .ok (composite [e0, e1, e1] [{ ia with axes := [0, 1] }, { ia with axes := [0, 2] }, identicalParticles [1, 2]]) ∧
      e0.dim = pm.cutoff ∧ e1.dim = 2 ^ pp.fin ∧ FreeIs e0 (modePtr pm .ip).w (modeOf pm) (modeJ pm.kappa pm.nTh) ∧ FreeIs e1 (part pp .ip).m (pumpedOf pp) [] ∧ ia.li = none ∧
      Couples ia [pm.cutoff, 2 ^ pp.fin] [(modePtr pm .ip).w, (part pp .ip).m] (interferenceH pp.fin (scatteringAmplitude U pp.vClass) (waveFunction ⟨pp.modePart, pp.kPart⟩)) := by
  obtain ⟨e0, a1, a2, a3⟩ := hm.free .ip
  obtain ⟨e1, b1, b2, b3⟩ := pumped_free pp hp .ip
  obtain ⟨ia, i1, -, i3⟩ := orthogonal_couples (p := part pp .ip) (modePtr pm .ip) (by rw [modePtr_dim]; exact hm.1) (by rw [modePtr_dim]; exact hm.2.1) hp
    ⟨pp.modePart, pp.kPart⟩ pp.vClass U (by simpa [part] using hn) (picture_agrees pm pp .ip) (fun _ => by simpa using hk) hUV [0, 1]
  rw [modePtr_dim] at i3
  refine ⟨e0, e1, ia, ?_, a2, b2, a3, b3, ?_, i3⟩
  · unfold twoParticlesOneMode
    simp only [a1, b1, Outcome.bind, i1]
  · unfold particleOrthogonalToCavity withEta at i1
    rw [etaEff_eq hUV] at i1
    simp only at i1
    cases hh : interfericOneModeFN (modePtr pm .ip) (part pp .ip) (scatteringAmplitude U pp.vClass) ⟨pp.modePart, pp.kPart⟩ with
    | ok h => rw [hh] at i1; simp only [Outcome.bind, Outcome.ok.injEq] at i1; rw [← i1]; rfl
    | throw => rw [hh] at i1; simp [Outcome.bind] at i1
    | undef => rw [hh] at i1; simp [Outcome.bind] at i1

theorem two_hypotheses {pm : ModeEl.Pars} {pp : ParticleEl.Pars} {e0 e1 : Element} {ia : Part} (a2 : e0.dim = pm.cutoff) (b2 : e1.dim = 2 ^ pp.fin) {X : Idx → Idx → ℂ}
    (i3 : Couples ia [pm.cutoff, 2 ^ pp.fin] [(modePtr pm .ip).w, (part pp .ip).m] X) :
    ∀ x ∈ [{ ia with axes := [0, 1] }, { ia with axes := [0, 2] }, identicalParticles [1, 2]], ValidAxes 3 x.axes ∧ 2 ≤ x.axes.length ∧
      Couples x (x.axes.map fun a => [e0.dim, e1.dim, e1.dim].getD a 0) (x.axes.map (twoW pm pp)) (if x.axes = [1, 2] then fun _ _ => 0 else X) := by
  simp only [List.mem_cons, List.not_mem_nil, or_false]
  rintro x (rfl | rfl | rfl)
  · refine ⟨⟨by simp, by simp, by simp⟩, by simp, ?_⟩
    simp [a2, b2, twoW]
    exact i3
  · refine ⟨⟨by simp, by simp, by simp⟩, by simp, ?_⟩
    simp [a2, b2, twoW]
    exact i3
  · refine ⟨⟨by simp [identicalParticles, interaction], by simp [identicalParticles, interaction], by simp [identicalParticles, interaction]⟩, by simp [identicalParticles, interaction], ?_⟩
    rw [if_pos (show (identicalParticles [1, 2]).axes = [1, 2] from rfl)]
    exact couples_none _ (fun _ _ _ _ => rfl) _

/-- **C132.** The script 2particles1mode simulates two particles interacting with the mode in the same way, and not with each other. -/
theorem twoParticles_simulates (pm : ModeEl.Pars) (hm : Usable pm) (pp : ParticleEl.Pars) (hp : pp.fin < 63) (hn : pp.kPart ≤ 2 ^ pp.fin) (hk : pp.kPart ≠ 0) (U : ℝ) (hUV : 0 ≤ U * pp.vClass) :
    ∃ c, twoParticlesOneMode pm pp U = .ok c ∧ CompSimulates c (twoParticlesH pm pp U) := by
  obtain ⟨e0, e1, ia, h1, a2, b2, a3, b3, -, i3⟩ := two_of pm hm pp hp hn hk U hUV
  refine ⟨_, h1, ?_⟩
  refine composite_simulates3 e0 e1 e1 _ (by rw [a2]; exact hm.2.1) (by rw [b2]; positivity) (by rw [b2]; positivity) (twoW pm pp) a3 b3 b3
    (fun x => if x.axes = [1, 2] then fun _ _ => 0 else interferenceH pp.fin (scatteringAmplitude U pp.vClass) (waveFunction ⟨pp.modePart, pp.kPart⟩)) (two_hypotheses a2 b2 i3) _ ?_
  intro i j hi hj h0
  simp only [List.map_cons, List.map_nil, List.sum_cons, List.sum_nil, identicalParticles, interaction]
  rw [if_neg (by simp : ¬ ([0, 1] : List ℕ) = [1, 2]), if_neg (by simp : ¬ ([0, 2] : List ℕ) = [1, 2]), if_pos trivial, extend3_missing [0, 1] 2 (by norm_num) (by simp; omega) _ h0,
    extend3_missing [0, 2] 1 (by norm_num) (by simp; omega) _ h0, extend3_missing [1, 2] 0 (by norm_num) (by simp; omega) _ h0]
  have q1 : ∀ i : Idx, q (coords [0, 1] i) 0 = q i 0 ∧ q (coords [0, 1] i) 1 = q i 1 ∧ q (coords [0, 2] i) 0 = q i 0 ∧ q (coords [0, 2] i) 1 = q i 2 := fun i => ⟨rfl, rfl, rfl, rfl⟩
  unfold twoParticlesH interferenceH
  simp only [tensor, tensor3, q1]
  ring

/-- **C132.** Light shift and potential of opposite sign: the script throws. -/
theorem twoParticles_throws (pm : ModeEl.Pars) (hm : Usable pm) (pp : ParticleEl.Pars) (hp : pp.fin < 63) (U : ℝ) (hUV : U * pp.vClass < 0) : twoParticlesOneMode pm pp U = .throw := by
  obtain ⟨e0, a1, -⟩ := hm.free .ip
  obtain ⟨e1, b1, -⟩ := pumped_free pp hp .ip
  unfold twoParticlesOneMode particleOrthogonalToCavity
  rw [etaEff_neg hUV]
  simp only [a1, b1, Outcome.bind, withEta]

theorem jump_invariant (J : Dens) {d0 d1 : ℕ} {i j : Idx} (hi : InBox (lower [d0, d1, d1]) (upper [d0, d1, d1]) i) (hj : InBox (lower [d0, d1, d1]) (upper [d0, d1, d1]) j) :
    extend 3 [0] (single J) (exchange i) (exchange j) = extend 3 [0] (single J) i j := by
  obtain ⟨a, b, c, rfl, h1, h2, h3⟩ := inBox3.1 hi
  obtain ⟨a', b', c', rfl, h1', h2', h3'⟩ := inBox3.1 hj
  have hp : ∀ k < 3, 0 ≤ [a, b, c].getD k 0 ∧ 0 ≤ [a', b', c'].getD k 0 := by
    intro k hk; rcases k with - | - | - | k <;> simp <;> omega
  have hp' : ∀ k < 3, 0 ≤ (exchange [a, b, c]).getD k 0 ∧ 0 ≤ (exchange [a', b', c']).getD k 0 := by
    intro k hk; rcases k with - | - | - | k <;> simp [exchange] <;> omega
  rw [extend3_single 0 1 2 (by norm_num) (by norm_num) (by omega) _ hp, extend3_single 0 1 2 (by norm_num) (by norm_num) (by omega) _ hp']
  simp only [exchange_q]
  ring

/-- What may happen in a quantum trajectory of a composite of a mode and two identical particles keeps the symmetry, if the Hamiltonian is invariant. -/
theorem symmetry_kept_of (e0 e1 : Element) (acts : List Part) (h0 : 0 < e0.dim) (h1 : 0 < e1.dim) {w0 w1 : ℕ → ℂ} {H0 H1 : Dens} {J0 : List Dens} (a3 : FreeIs e0 w0 H0 J0) (b3 : FreeIs e1 w1 H1 [])
    (hJ : J0.length < 2 ^ 64) (hA : ∀ x ∈ acts, x.li = none) (V : Part → Idx → Idx → ℂ)
    (hI : ∀ x ∈ acts, ValidAxes 3 x.axes ∧ 2 ≤ x.axes.length ∧ Couples x (x.axes.map fun a => [e0.dim, e1.dim, e1.dim].getD a 0) (x.axes.map fun k => if k = 0 then w0 else w1) (V x))
    {H : Idx → Idx → ℂ} (hs : CompSimulates (composite [e0, e1, e1] acts) H) (hH : Invariant H) (σ : ℂ) (psi psi' : Idx → ℂ)
    (hr : Relation.ReflTransGen (Happens (composite [e0, e1, e1] acts)) psi psi') (h : HasSymmetry (lower [e0.dim, e1.dim, e1.dim]) (upper [e0.dim, e1.dim, e1.dim]) σ psi) :
    HasSymmetry (lower [e0.dim, e1.dim, e1.dim]) (upper [e0.dim, e1.dim, e1.dim]) σ psi' := by
  generalize hc : composite [e0, e1, e1] acts = c at *
  have hlb : c.lb = lower [e0.dim, e1.dim, e1.dim] := by rw [← hc]; simp [composite, lower]
  have hub : c.ub = upper [e0.dim, e1.dim, e1.dim] := by rw [← hc]; simp [composite, upper]
  rw [← hlb, ← hub] at h ⊢
  induction hr with
  | refl => exact h
  | tail _ hh ih =>
    cases hh with
    | evolves t0 t psi hpsi => exact evolution_exchange hlb hub hs hH t0 t psi hpsi ih
    | scales z psi => intro i hi; simp only; rw [ih i hi]; ring
    | jumps t m _ hm' =>
      rename_i psi _
      let J : ℕ → List Dens := fun k => if k = 0 then J0 else []
      have hL : ∀ k e, [e0, e1, e1][k]? = some e → LiIs e (J k) := by
        obtain ⟨_, -, -, l0, -⟩ := a3
        obtain ⟨_, -, -, l1, -⟩ := b3
        intro k e he
        rcases k with - | - | - | k
        · simp at he; subst he; exact l0
        · simp at he; subst he; exact l1
        · simp at he; subst he; exact l1
        · simp at he
      obtain ⟨w', V', -, hok, -⟩ := composite_components [e0, e1, e1] acts (by simp)
        (by simp [h0, h1]) (fun k => if k = 0 then w0 else w1) (fun k => if k = 0 then H0 else H1) V
        (fun k e he => by
          rcases k with - | - | - | k
          · simp at he; subst he; exact ⟨_, a3⟩
          · simp at he; subst he; exact ⟨_, b3⟩
          · simp at he; subst he; exact ⟨_, b3⟩
          · simp at he) hI
      rw [hc] at hok
      have hlen : m < (c.jumps fun k j => single ((J k).getD j 0)).length := by rw [jumps_length]; exact hm'
      obtain ⟨k, j, p, li, q1, q2, q3, q4, -⟩ := jumps_spec c _ m _ (List.getElem?_eq_getElem hlen)
      rw [← hc] at q1
      obtain ⟨e, r1, r2, r3⟩ := composite_part _ _ hA k p li q1 q2
      have hsz : (c.parts.map (nAvr .li)).sum < 2 ^ 64 := by
        rw [← hc, nAvr_parts _ _ J hL hA]
        simpa [J, List.range_succ] using hJ
      have hk0 : k = 0 := by
        by_contra hne
        have := freePart_nAvr (hL k e r1) k
        rw [← r2] at this
        simp [nAvr, getLA, q2, J, hne] at this
        omega
      subst hk0
      have e' : ∀ i, InBox c.lb c.ub i → c.actWithJ t psi m i = matAction c.lb c.ub (extend 3 [0] (single ((J 0).getD j 0))) psi i := by
        intro i hi
        rw [q4, comp_jump_operator_box c hok t psi 0 j p li (by rw [← hc]; exact q1) q2 q3 hsz (single ((J 0).getD j 0))
          (fun psi s hs => by
            have := composite_jump _ _ J hL hA 0 p li q1 q2 j q3 t psi s
            rw [hc] at this
            exact this hs) i hi]
        rw [r2, ← hc]
        rfl
      rw [hlb, hub] at e' ih ⊢
      intro i hi
      rw [e' i hi, e' _ (exchange_box hi)]
      unfold matAction
      rw [← sum_exchange, Finset.mul_sum]
      refine Finset.sum_congr rfl fun j' hj => ?_
      have hj' := (mem_boxFinset _ _ _ (lower_length _)).1 hj
      rw [jump_invariant _ hi hj', ih j' hj']
      ring

/-- **C132.** Whatever happens in a quantum trajectory of two particles in a mode – evolution, jumps, normalisation, in any order and number – their state keeps its symmetry under the exchange of the particles. -/
theorem symmetry_kept (pm : ModeEl.Pars) (hm : Usable pm) (pp : ParticleEl.Pars) (hp : pp.fin < 63) (hn : pp.kPart ≤ 2 ^ pp.fin) (hk : pp.kPart ≠ 0) (U : ℝ) (hUV : 0 ≤ U * pp.vClass) :
    ∃ c, twoParticlesOneMode pm pp U = .ok c ∧ c.lb = lower [pm.cutoff, 2 ^ pp.fin, 2 ^ pp.fin] ∧ c.ub = upper [pm.cutoff, 2 ^ pp.fin, 2 ^ pp.fin] ∧
      ∀ (σ : ℂ) (psi psi' : Idx → ℂ), Relation.ReflTransGen (Happens c) psi psi' → HasSymmetry c.lb c.ub σ psi → HasSymmetry c.lb c.ub σ psi' := by
  obtain ⟨c, h1, hs⟩ := twoParticles_simulates pm hm pp hp hn hk U hUV
  obtain ⟨e0, e1, ia, h1', a2, b2, a3, b3, hli, i3⟩ := two_of pm hm pp hp hn hk U hUV
  have hc : c = composite [e0, e1, e1] [{ ia with axes := [0, 1] }, { ia with axes := [0, 2] }, identicalParticles [1, 2]] := by rw [h1] at h1'; exact Outcome.ok.inj h1'
  have hlb : c.lb = lower [pm.cutoff, 2 ^ pp.fin, 2 ^ pp.fin] := by rw [hc]; simp [composite, lower]
  have hub : c.ub = upper [pm.cutoff, 2 ^ pp.fin, 2 ^ pp.fin] := by rw [hc]; simp [composite, upper, a2, b2]
  refine ⟨c, h1, hlb, hub, fun σ psi psi' hr h => ?_⟩
  have hA : ∀ x ∈ [{ ia with axes := [0, 1] }, { ia with axes := [0, 2] }, identicalParticles [1, 2]], x.li = none := by
    simp only [List.mem_cons, List.not_mem_nil, or_false]
    rintro x (rfl | rfl | rfl)
    · exact hli
    · exact hli
    · rfl
  rw [hlb, hub, ← a2, ← b2] at h ⊢
  subst hc
  exact symmetry_kept_of e0 e1 _ (by rw [a2]; exact hm.2.1) (by rw [b2]; positivity) a3 b3 (by simp only [modeJ]; split_ifs <;> simp) hA _ (two_hypotheses a2 b2 i3) hs (twoParticlesH_invariant pm pp U) σ psi psi' hr h

/-- **C132.** The product of the states of the mode and of the two particles, both of which are in the same one, is symmetric: this is the initial state of the scripts. -/
theorem initial_symmetric (lb ub : Idx) (a b : ℕ → ℂ) : HasSymmetry lb ub 1 fun i => a (q i 0) * b (q i 1) * b (q i 2) := by
  intro i _
  simp only [exchange_q]
  ring

/-- **C132.** As long as the state is symmetric or antisymmetric, all the (not normalised) averages of the two particles agree. -/
theorem particles_alike {d0 d1 : ℕ} {σ : ℂ} (hσ : conj σ * σ = 1) {psi : Idx → ℂ} (h : HasSymmetry (lower [d0, d1, d1]) (upper [d0, d1, d1]) σ psi) (O : Dens) :
    ∑ i ∈ boxFinset (lower [d0, d1, d1]) (upper [d0, d1, d1]), ∑ j ∈ boxFinset (lower [d0, d1, d1]) (upper [d0, d1, d1]), conj (psi i) * tensor3 one O one i j * psi j =
      ∑ i ∈ boxFinset (lower [d0, d1, d1]) (upper [d0, d1, d1]), ∑ j ∈ boxFinset (lower [d0, d1, d1]) (upper [d0, d1, d1]), conj (psi i) * tensor3 one one O i j * psi j := by
  have hl := lower_length [d0, d1, d1]
  rw [← sum_exchange]
  refine Finset.sum_congr rfl fun i hi => ?_
  rw [← sum_exchange]
  refine Finset.sum_congr rfl fun j hj => ?_
  rw [h i ((mem_boxFinset _ _ _ hl).1 hi), h j ((mem_boxFinset _ _ _ hl).1 hj), map_mul]
  simp only [tensor3, exchange_q]
  linear_combination (conj (psi i) * one (q i 0) (q j 0) * O (q i 2) (q j 2) * one (q i 1) (q j 1) * psi j) * hσ

/-- The default parameters, with a red detuned light shift. -/
example : ∃ c, twoParticlesOneMode ⟨10, -10, 0, 0, 10, 0, 1⟩ ⟨6, 1, -10, 1, .cos⟩ (-1) = .ok c ∧ CompSimulates c (twoParticlesH ⟨10, -10, 0, 0, 10, 0, 1⟩ ⟨6, 1, -10, 1, .cos⟩ (-1)) :=
  twoParticles_simulates _ ⟨by norm_num, by norm_num, by norm_num, by norm_num, rfl, rfl⟩ _ (by norm_num) (by norm_num) (by norm_num) _ (by norm_num)

example : twoParticlesOneMode ⟨10, -10, 0, 0, 10, 0, 1⟩ ⟨6, 1, -10, 1, .cos⟩ 1 = .throw :=
  twoParticles_throws _ ⟨by norm_num, by norm_num, by norm_num, by norm_num, rfl, rfl⟩ _ (by norm_num) _ (by norm_num)

/-- An antisymmetric state of one photon and two particles of neighbouring momenta, which is not zero: after a jump it is still antisymmetric. -/
example : ∃ psi : Idx → ℂ, psi [1, 0, 1] = 1 ∧ HasSymmetry (lower [10, 64, 64]) (upper [10, 64, 64]) (-1) psi ∧
    ∃ c, twoParticlesOneMode ⟨10, -10, 0, 0, 10, 0, 1⟩ ⟨6, 1, -10, 1, .cos⟩ (-1) = .ok c ∧ ∀ psi', Relation.ReflTransGen (Happens c) psi psi' → HasSymmetry (lower [10, 64, 64]) (upper [10, 64, 64]) (-1) psi' := by
  have ha : HasSymmetry (lower [10, 64, 64]) (upper [10, 64, 64]) (-1) (fun i : Idx => (if i = [1, 0, 1] then 1 else if i = [1, 1, 0] then -1 else 0 : ℂ)) := by
    intro i hi
    obtain ⟨a, b, c, rfl, -⟩ := inBox3.1 hi
    simp only [exchange, List.getD_cons_zero, List.getD_cons_succ, List.cons.injEq, and_true]
    by_cases h0 : a = 1 <;> by_cases h1 : b = 0 <;> by_cases h2 : b = 1 <;> by_cases h3 : c = 0 <;> by_cases h4 : c = 1 <;> simp [h0, h1, h2, h3, h4] <;> omega
  obtain ⟨c, h1, h2, h3, h4⟩ := symmetry_kept ⟨10, -10, 0, 0, 10, 0, 1⟩ ⟨by norm_num, by norm_num, by norm_num, by norm_num, rfl, rfl⟩ ⟨6, 1, -10, 1, .cos⟩ (by norm_num) (by norm_num) (by norm_num) (-1)
    (by norm_num)
  rw [h2, h3] at h4
  exact ⟨_, by simp, ha, c, h1, fun psi' hr => h4 (-1) _ psi' hr ha⟩

end CppQED.ScriptSys
