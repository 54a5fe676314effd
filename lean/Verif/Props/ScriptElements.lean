import Verif.Lemmas.ScriptSystems
import Verif.Props.ScriptSystems
import Verif.Props.Qbit
import Verif.Props.MultiLevel

/-!
# Scripts of single systems: C133 and C134
-/

namespace CppQED.ScriptSys
open CppQED.Elem CppQED.Tridiag CppQED.ModeEl CppQED.Spec CppQED.Interactions
open CppQED.ParticleEl (ModeFunction isComplex potE lightShift expE)
open ComplexConjugate

/-- An element determines the Hamiltonian it simulates. -/
theorem generates_unique {e : Element} {H H' : Dens} {J J' : List Dens} (h : Generates e H J) (h' : Generates e H' J') : mat e.dim H = mat e.dim H' := by
  have key : ∀ v : Fin e.dim → ℂ, (mat e.dim H).mulVec v = (mat e.dim H').mulVec v := by
    intro v
    have hpsi : ∀ i, HasDerivAt (fun s : ℝ => v i + s * rhs e 0 0 v i) (rhs e 0 0 ((fun (s : ℝ) i => v i + s * rhs e 0 0 v i) 0) i) (0 : ℝ) := by
      intro i
      have d := ((Complex.ofRealCLM.hasDerivAt (x := (0 : ℝ))).mul_const (rhs e 0 0 v i)).const_add (v i)
      simpa using d
    have a := h.schroedinger 0 0 (fun s i => v i + s * rhs e 0 0 v i) hpsi
    have b := h'.schroedinger 0 0 (fun s i => v i + s * rhs e 0 0 v i) hpsi
    rw [h.initial] at a
    rw [h'.initial] at b
    funext i
    have := (a i).unique (b i)
    simpa using this
  exact Matrix.ext_of_mulVec_single fun i => key _

/-! ## SingleParticle -/

theorem lightShift_zero_iff (pp : ParticleEl.Pars) (h0 : 0 < pp.kPart) (h1 : 2 * pp.kPart < 2 ^ pp.fin) :
    mat (2 ^ pp.fin) (particleOf pp) = mat (2 ^ pp.fin) (pumpedOf pp) ↔ pp.vClass = 0 ∨ isComplex pp.modePart = true := by
  have e : ∀ i j, pumpedOf pp i j = particleOf pp i j + potE pp.vClass ⟨pp.modePart, pp.kPart⟩ i j := by
    intro i j
    rw [pumpedOf_eq, ParticleEl.potE_eq pp.fin]
    unfold particleOf particleH
    rw [multiplication_const]
    ring
  constructor
  · intro h
    by_contra hc
    push Not at hc
    have hx : isComplex pp.modePart = false := by simpa using hc.2
    have := congrFun (congrFun h ⟨2 * pp.kPart, h1⟩) ⟨0, by positivity⟩
    simp only [mat_apply, e] at this
    have hz : potE pp.vClass ⟨pp.modePart, pp.kPart⟩ (2 * pp.kPart) 0 = 0 := by linear_combination -this
    unfold potE expE at hz
    have hk : ¬ ((2 * pp.kPart : ℤ) = -(2 * pp.kPart)) := by omega
    have hv : (pp.vClass : ℂ) ≠ 0 := by exact_mod_cast hc.1
    by_cases hm : pp.modePart = .sin <;> simp [hx, hk, hm, hv] at hz <;> simp_all
  · intro h
    ext i j
    simp only [mat_apply, e]
    rcases h with h | h <;> simp [potE, h]

/-- **C133, violated.** Whatever the potential, the script SingleParticle simulates a free particle; it is the particle in the potential given only if the potential is flat. (The depth, by default -10, has an effect on the
initial condition only.) -/
theorem singleParticle_potential_partial (pp : ParticleEl.Pars) (hp : pp.fin < 63) (h0 : 0 < pp.kPart) (h1 : 2 * pp.kPart < 2 ^ pp.fin) (sig : ℝ) (hs : sig ≠ 0 ∨ pp.vClass ≠ 0) (qmp : Picture) :
    ∃ e, singleParticle pp sig qmp = .ok (some e) ∧ Generates e (particleOf pp) [] ∧ (Generates e (pumpedOf pp) [] ↔ pp.vClass = 0 ∨ isComplex pp.modePart = true) := by
  obtain ⟨e, a1, a2, -, a4⟩ := ParticleEl.make_simulates pp hp qmp
  refine ⟨e, ?_, a4, fun h => ?_, fun h => ?_⟩
  · unfold singleParticle
    rw [a1]
    simp only [Outcome.bind]
    rw [if_neg (fun h => hs.elim (fun k => k h.1) fun k => k h.2)]
  · rw [← lightShift_zero_iff pp h0 h1, ← a2]
    exact generates_unique a4 h
  · refine QbitEl.generates_congr a4 ?_ rfl
    rw [a2]
    exact (lightShift_zero_iff pp h0 h1).2 h

/-- Without potential and width there is no initial condition. -/
theorem singleParticle_aborts (pp : ParticleEl.Pars) (hp : pp.fin < 63) (sig : ℝ) (qmp : Picture) : singleParticle pp sig qmp = .ok none ↔ sig = 0 ∧ pp.vClass = 0 := by
  obtain ⟨e, a1, -⟩ := ParticleEl.make_simulates pp hp qmp
  unfold singleParticle
  rw [a1]
  simp only [Outcome.bind]
  by_cases h : sig = 0 ∧ pp.vClass = 0
  · simp [h]
  · rw [if_neg h]; simp [h]

/-! ## PTLA_C++QED -/

theorem phase_jump (γp : ℝ) (hp : 0 ≤ γp) (ρ : Matrix (Fin 2) (Fin 2) ℂ) :
    (mat 2 fun i j => (Real.sqrt (2 * γp) : ℂ) * sigmaZ i j) * ρ * (mat 2 fun i j => (Real.sqrt (2 * γp) : ℂ) * sigmaZ i j).conjTranspose = (2 * γp : ℂ) • (mat 2 sigmaZ * ρ * mat 2 sigmaZ) := by
  have h : (Real.sqrt (2 * γp) : ℂ) * (Real.sqrt (2 * γp) : ℂ) = 2 * γp := by rw [← Complex.ofReal_mul, Real.mul_self_sqrt (by linarith)]; push_cast; ring
  generalize hr : Real.sqrt (2 * γp) = r at h ⊢
  ext i j
  fin_cases i <;> fin_cases j <;> simp [Matrix.mul_apply, Fin.sum_univ_two, mat_apply, sigmaZ, Matrix.conjTranspose_apply] <;> linear_combination (ρ _ _) * h

/-- The effect of phase noise on the Master equation. -/
theorem phaseNoise_adds (γ γp δ : ℝ) (η : ℂ) (hp : 0 ≤ γp) (ρ : Matrix (Fin 2) (Fin 2) ℂ) :
    lindblad (mat 2 (qbitH γ δ η)) ((qbitJ γ γp).map (mat 2)) ρ = lindblad (mat 2 (qbitH γ δ η)) [mat 2 (sc (Real.sqrt (2 * γ)) sigma)] ρ + (2 * γp : ℂ) • (mat 2 sigmaZ * ρ * mat 2 sigmaZ) := by
  unfold lindblad qbitJ
  by_cases h : γp = 0
  · subst h
    by_cases hg : γ = 0
    · subst hg
      have : mat 2 (sc 0 sigma) = 0 := by ext i j; simp [mat_apply, sc]
      simp [this]
    · simp [hg]; rfl
  · rw [if_pos h]
    simp only [List.map_cons, List.map_nil, List.sum_cons, List.sum_nil, add_zero]
    rw [phase_jump γp hp, ← add_assoc]
    rfl

/-- **C134, violated.** The two implementations of the atom: with the switch `fullImpl` there is phase noise, without it there is none. They agree – be it up to the normalisation – exactly if the strength of the phase noise is
zero. -/
theorem ptla_switch_partial (p : QbitEl.Pars) (hγ : 0 ≤ p.gamma) (hp : 0 ≤ p.gammaParallel) (qmp : Picture) :
    (∃ e, ptlaScript true p qmp = .ok e ∧ Generates e (qbitH p.gamma p.delta p.eta) (qbitJ p.gamma p.gammaParallel)) ∧
    (∃ e, ptlaScript false p qmp = .ok e ∧ Generates e (qbitH p.gamma p.delta p.eta) [sc (Real.sqrt (2 * p.gamma)) sigma]) ∧
    ((∃ c : ℂ, ∀ ρ, lindblad (mat 2 (qbitH p.gamma p.delta p.eta)) ((qbitJ p.gamma p.gammaParallel).map (mat 2)) ρ =
      lindblad (mat 2 (qbitH p.gamma p.delta p.eta)) [mat 2 (sc (Real.sqrt (2 * p.gamma)) sigma)] ρ + c • ρ) ↔ p.gammaParallel = 0) := by
  refine ⟨?_, ⟨_, rfl, (MultiEl.ptla_generates _ _ _).1⟩, fun ⟨c, h⟩ => ?_, fun h => ⟨0, fun ρ => ?_⟩⟩
  · obtain ⟨e, h1, -, h3, -⟩ := QbitEl.makePhaseNoise_simulates p hγ qmp
    exact ⟨e, h1, h3⟩
  · have e : ∀ ρ, c • ρ = (2 * p.gammaParallel : ℂ) • (mat 2 sigmaZ * ρ * mat 2 sigmaZ) := by
      intro ρ
      have := h ρ
      rw [phaseNoise_adds _ _ _ _ hp] at this
      exact (add_left_cancel this).symm
    have e1 := congrFun (congrFun (e 1) 0) 0
    have e2 := congrFun (congrFun (e (Matrix.single 0 1 1)) 0) 1
    simp [Matrix.mul_apply, Fin.sum_univ_two, mat_apply, sigmaZ] at e1 e2
    have : (p.gammaParallel : ℂ) = 0 := by linear_combination (e2 - e1) / 4 
    exact_mod_cast this
  · rw [phaseNoise_adds _ _ _ _ hp, h]; simp

/-- The default parameters: the potential is ignored. -/
example : ∃ e, singleParticle ⟨6, 1, -10, 1, .sin⟩ (1 / 10) .ip = .ok (some e) ∧ ¬ Generates e (pumpedOf ⟨6, 1, -10, 1, .sin⟩) [] := by
  obtain ⟨e, h1, -, h3⟩ := singleParticle_potential_partial ⟨6, 1, -10, 1, .sin⟩ (by norm_num) (by norm_num) (by norm_num) (1 / 10) (by norm_num) .ip
  exact ⟨e, h1, fun h => by simpa [isComplex] using h3.1 h⟩

/-- With and without phase noise. -/
example : (¬ ∃ c : ℂ, ∀ ρ, lindblad (mat 2 (qbitH 2 (-10) Complex.I)) ((qbitJ 2 1).map (mat 2)) ρ = lindblad (mat 2 (qbitH 2 (-10) Complex.I)) [mat 2 (sc (Real.sqrt (2 * 2)) sigma)] ρ + c • ρ) ∧
    ∃ c : ℂ, ∀ ρ, lindblad (mat 2 (qbitH 2 (-10) Complex.I)) ((qbitJ 2 0).map (mat 2)) ρ = lindblad (mat 2 (qbitH 2 (-10) Complex.I)) [mat 2 (sc (Real.sqrt (2 * 2)) sigma)] ρ + c • ρ :=
  ⟨fun h => by have := (ptla_switch_partial ⟨-10, 2, 1, Complex.I⟩ (by norm_num) (by norm_num) .ip).2.2.1 h; norm_num at this,
    (ptla_switch_partial ⟨-10, 2, 0, Complex.I⟩ (by norm_num) (by norm_num) .ip).2.2.2 rfl⟩

end CppQED.ScriptSys
