import Verif.Spec.RateEquations
import Verif.Props.Relaxation
import Verif.Props.Conservation

/-! # Property C170: multilevel systems without drives follow the rate equations -/

namespace CppQED.MultiEl
open CppQED.Elem CppQED.Spec CppQED.Evolved Matrix CppQED.Master CppQED.Interactions CppQED.Relax
open scoped ComplexConjugate ComplexOrder

/-- The decay rate of the amplitude of a level. -/
noncomputable def Pars.width (p : Pars) (i : ℕ) : ℝ := (p.gammas.map fun g => if g.second = i then g.gamma else 0).sum

/-- The list of the decays. -/
def Pars.decays (p : Pars) : List (ℕ × ℕ × ℝ) := p.gammas.map fun g => (g.first, g.second, g.gamma)

theorem H_undriven (p : Pars) (h : p.etas = []) : mat p.nl p.H = Matrix.diagonal fun i : Fin p.nl => Complex.I * p.deltas i - p.width i := by
  ext i j
  rw [mat_apply, Matrix.diagonal_apply]
  unfold Pars.H multiH Pars.width
  rw [h]
  simp only [List.map_nil, List.sum_nil, add_zero, List.map_map, Function.comp_def, Fin.ext_iff]
  split_ifs with hij
  · congr 1
    induction p.gammas with
    | nil => simp
    | cons g L ih =>
      rw [List.map_cons, List.map_cons, List.sum_cons, List.sum_cons, Complex.ofReal_add, ← ih]
      split_ifs <;> simp
  · rfl

theorem sandwich (d : ℕ) (l m : ℕ) (hm : m < d) (ρ : Matrix (Fin d) (Fin d) ℂ) (i j : Fin d) : (mat d (transition l m) * ρ * (mat d (transition l m))ᴴ) i j = if (i : ℕ) = l ∧ (j : ℕ) = l then ρ ⟨m, hm⟩ ⟨m, hm⟩ else 0 := by
  rw [Matrix.mul_apply, Finset.sum_eq_single ⟨m, hm⟩]
  · rw [Matrix.mul_apply, Finset.sum_eq_single ⟨m, hm⟩]
    · rw [Matrix.conjTranspose_apply, mat_apply, mat_apply]
      unfold transition
      by_cases hi : (i : ℕ) = l <;> by_cases hj : (j : ℕ) = l <;> simp [hi, hj]
    · intro k _ hk
      rw [mat_apply]
      unfold transition
      rw [if_neg fun e => hk (Fin.ext e.2), zero_mul]
    · simp
  · intro k _ hk
    rw [Matrix.conjTranspose_apply, mat_apply]
    unfold transition
    rw [if_neg fun e => hk (Fin.ext e.2), star_zero, mul_zero]
  · simp

/-- The generator, element by element. -/
theorem generator_apply (p : Pars) (hs : p.Sane) (hγ : ∀ g ∈ p.gammas, 0 ≤ g.gamma) (hη : p.etas = []) (ρ : Rho p.nl) (i j : Fin p.nl) :
    lindblad (mat p.nl p.H) (p.J.map (mat p.nl)) ρ i j = (Complex.I * (p.deltas i - p.deltas j) - (p.width i + p.width j)) * ρ i j +
      (p.gammas.map fun g => if (i : ℕ) = g.first ∧ (j : ℕ) = g.first then 2 * g.gamma * (if h : g.second < p.nl then ρ ⟨g.second, h⟩ ⟨g.second, h⟩ else 0) else 0).sum := by
  unfold lindblad
  rw [H_undriven p hη, Matrix.add_apply, Matrix.add_apply, Matrix.diagonal_conjTranspose, Matrix.diagonal_mul, Matrix.mul_diagonal, Pi.star_apply]
  congr 1
  · rw [Complex.star_def, map_sub, map_mul, Complex.conj_I, Complex.conj_ofReal, Complex.conj_ofReal]
    ring
  · unfold Pars.J
    rw [List.map_map, List.map_map]
    have : ∀ L : List Decay, (∀ g ∈ L, g.second < p.nl ∧ 0 ≤ g.gamma) → ((L.map (((fun j => j * ρ * jᴴ) ∘ mat p.nl) ∘ fun g => sc (Real.sqrt (2 * g.gamma)) (transition g.first g.second))).sum) i j =
        (L.map fun g => if (i : ℕ) = g.first ∧ (j : ℕ) = g.first then 2 * g.gamma * (if h : g.second < p.nl then ρ ⟨g.second, h⟩ ⟨g.second, h⟩ else 0) else (0 : ℂ)).sum := by
      intro L
      induction L with
      | nil => intro _; simp
      | cons g L ih =>
        intro hL
        obtain ⟨h1, h2⟩ := hL g (by simp)
        rw [List.map_cons, List.map_cons, List.sum_cons, List.sum_cons, Matrix.add_apply, ih fun g' hg' => hL g' (by simp [hg'])]
        congr 1
        simp only [Function.comp_def]
        rw [ModeEl.mat_sc, Matrix.conjTranspose_smul, Matrix.mul_smul, Matrix.smul_mul, Matrix.smul_mul, smul_smul, Complex.star_def, Complex.conj_ofReal, ← Complex.ofReal_mul, Real.mul_self_sqrt (by linarith), Matrix.smul_apply, sandwich _ _ _ h1, dif_pos h1, smul_eq_mul]
        split_ifs
        · push_cast; ring
        · simp
    exact this _ fun g hg => ⟨(hs.gammas g hg).2.1, hγ g hg⟩

/-- Coherences decay independently of everything else. -/
theorem coherences_decay (p : Pars) (hs : p.Sane) (hγ : ∀ g ∈ p.gammas, 0 ≤ g.gamma) (hη : p.etas = []) (T : ℝ) (hT : 0 ≤ T) (ρ : ℝ → Rho p.nl) (h : Unravel.Solves (mat p.nl p.H) (p.J.map (mat p.nl)) T ρ) (i j : Fin p.nl)
    (hij : i ≠ j) : ρ T i j = Complex.exp ((Complex.I * (p.deltas i - p.deltas j) - (p.width i + p.width j)) * T) * ρ 0 i j := by
  refine decays _ T hT (fun s => ρ s i j) fun t a b => (h t a b i j).congr_deriv ?_
  rw [generator_apply p hs hγ hη]
  have : ∀ L : List Decay, (L.map fun g => if (i : ℕ) = g.first ∧ (j : ℕ) = g.first then 2 * g.gamma * (if h : g.second < p.nl then ρ t ⟨g.second, h⟩ ⟨g.second, h⟩ else 0) else (0 : ℂ)).sum = 0 := by
    intro L
    refine List.sum_eq_zero fun x hx => ?_
    obtain ⟨g, -, rfl⟩ := List.mem_map.1 hx
    exact if_neg fun e => hij (Fin.ext (e.1.trans e.2.symm))
  rw [this, add_zero]

theorem width_mul (p : Pars) (i : ℕ) (z : ℂ) : (p.gammas.map fun g => if g.second = i then 2 * (g.gamma : ℂ) * z else 0).sum = 2 * p.width i * z := by
  unfold Pars.width
  induction p.gammas with
  | nil => simp
  | cons g L ih =>
    rw [List.map_cons, List.map_cons, List.sum_cons, List.sum_cons, ih]
    split_ifs <;> push_cast <;> ring

/-- The diagonal of the generator: the rate equations. -/
theorem generator_diag (p : Pars) (hs : p.Sane) (hγ : ∀ g ∈ p.gammas, 0 ≤ g.gamma) (hη : p.etas = []) (ρ : Rho p.nl) (i : Fin p.nl) (q : ℕ → ℂ) (hq : ∀ k : Fin p.nl, q k = ρ k k) :
    lindblad (mat p.nl p.H) (p.J.map (mat p.nl)) ρ i i = (p.decays.map fun g => (if g.1 = (i : ℕ) then 2 * (g.2.2 : ℂ) * q g.2.1 else 0) - (if g.2.1 = (i : ℕ) then 2 * (g.2.2 : ℂ) * q i else 0)).sum := by
  rw [generator_apply p hs hγ hη]
  have e : (Complex.I * (p.deltas i - p.deltas i) - (p.width i + p.width i)) * ρ i i = -(2 * p.width i * q i) := by rw [hq i]; ring
  rw [e, ← width_mul]
  unfold Pars.decays
  rw [List.map_map]
  have : ∀ L : List Decay, (∀ g ∈ L, g.second < p.nl) → -(L.map fun g => if g.second = (i : ℕ) then 2 * (g.gamma : ℂ) * q i else 0).sum +
      (L.map fun g => if (i : ℕ) = g.first ∧ (i : ℕ) = g.first then 2 * (g.gamma : ℂ) * (if h : g.second < p.nl then ρ ⟨g.second, h⟩ ⟨g.second, h⟩ else 0) else 0).sum =
      (L.map ((fun g => (if g.1 = (i : ℕ) then 2 * (g.2.2 : ℂ) * q g.2.1 else 0) - (if g.2.1 = (i : ℕ) then 2 * (g.2.2 : ℂ) * q i else 0)) ∘ fun g : Decay => ((g.first, g.second, g.gamma) : ℕ × ℕ × ℝ))).sum := by
    intro L
    induction L with
    | nil => intro _; simp
    | cons g L ih =>
      intro hL
      have h1 := hL g (by simp)
      have ih := ih fun g' hg' => hL g' (by simp [hg'])
      simp only [List.map_cons, List.sum_cons]
      rw [← ih, dif_pos h1, ← hq ⟨g.second, h1⟩]
      simp only [Function.comp_def, and_self, eq_comm (a := (i : ℕ)) (b := g.first)]
      ring
  exact this _ fun g hg => (hs.gammas g hg).2.1

/-- The rate equations have a solution for every initial condition. -/
theorem rates_exist (p : Pars) (hs : p.Sane) (hγ : ∀ g ∈ p.gammas, 0 ≤ g.gamma) (hη : p.etas = []) (T : ℝ) (q0 : ℕ → ℝ) : ∃ q, Rates p.nl p.decays T q ∧ ∀ i < p.nl, q 0 i = q0 i := by
  let A := mat p.nl p.H
  let J := p.J.map (mat p.nl)
  let r : Rho p.nl := Matrix.diagonal fun i : Fin p.nl => ((q0 i : ℝ) : ℂ)
  refine ⟨fun t i => if h : i < p.nl then (sol A J t r ⟨i, h⟩ ⟨i, h⟩).re else 0, fun t _ _ i hi => ?_, fun i hi => ?_⟩
  · have h := hasDerivAt_sol A J r 0 t ⟨i, hi⟩ ⟨i, hi⟩
    simp only [sub_zero] at h
    rw [generator_diag p hs hγ hη (sol A J t r) ⟨i, hi⟩ (fun k => if h : k < p.nl then sol A J t r ⟨k, h⟩ ⟨k, h⟩ else 0) (fun k => dif_pos k.2)] at h
    have h2 := (Complex.reCLM.hasFDerivAt).comp_hasDerivAt t h
    simp only [dif_pos hi]
    refine h2.congr_deriv ?_
    have : ∀ L : List (ℕ × ℕ × ℝ), Complex.reCLM (L.map fun g => (if g.1 = i then 2 * (g.2.2 : ℂ) * (if h : g.2.1 < p.nl then sol A J t r ⟨g.2.1, h⟩ ⟨g.2.1, h⟩ else 0) else 0) -
        (if g.2.1 = i then 2 * (g.2.2 : ℂ) * (if h : i < p.nl then sol A J t r ⟨i, h⟩ ⟨i, h⟩ else 0) else 0)).sum =
        (L.map fun g => (if g.1 = i then 2 * g.2.2 * (if h : g.2.1 < p.nl then (sol A J t r ⟨g.2.1, h⟩ ⟨g.2.1, h⟩).re else 0) else 0) - (if g.2.1 = i then 2 * g.2.2 * (sol A J t r ⟨i, hi⟩ ⟨i, hi⟩).re else 0)).sum := by
      intro L
      induction L with
      | nil => simp
      | cons g L ih =>
        rw [List.map_cons, List.map_cons, List.sum_cons, List.sum_cons, map_add, ih]
        congr 1
        have e : ∀ (c : ℝ) (z : ℂ), (2 * (c : ℂ) * z).re = 2 * c * z.re := fun c z => by
          have : (2 * (c : ℂ)) = ((2 * c : ℝ) : ℂ) := by push_cast; rfl
          rw [this, Complex.re_ofReal_mul]
        rw [dif_pos hi, Complex.reCLM_apply, Complex.sub_re]
        congr 1
        · split_ifs
          · rw [e]
          · simp
          · rfl
        · split_ifs
          · rw [e]
          · rfl
    exact this _
  · simp only [dif_pos hi, sol_zero]
    simp [r]

theorem rates_sub (k : ℕ) (q : ℕ → ℝ) (L : List (ℕ × ℕ × ℝ)) (u : ℕ → ℂ) : (L.map fun g => (if g.1 = k then 2 * (g.2.2 : ℂ) * u g.2.1 else 0) - (if g.2.1 = k then 2 * (g.2.2 : ℂ) * u k else 0)).sum -
    (((L.map fun g => (if g.1 = k then 2 * g.2.2 * q g.2.1 else 0) - (if g.2.1 = k then 2 * g.2.2 * q k else 0)).sum : ℝ) : ℂ) =
    (L.map fun g => (if g.1 = k then 2 * (g.2.2 : ℂ) * (u g.2.1 - q g.2.1) else 0) - (if g.2.1 = k then 2 * (g.2.2 : ℂ) * (u k - q k) else 0)).sum := by
  induction L with
  | nil => simp
  | cons g L ih =>
    rw [List.map_cons, List.map_cons, List.map_cons, List.sum_cons, List.sum_cons, List.sum_cons, ← ih, Complex.ofReal_add]
    generalize (L.map fun g => (if g.1 = k then 2 * (g.2.2 : ℂ) * u g.2.1 else 0) - (if g.2.1 = k then 2 * (g.2.2 : ℂ) * u k else 0)).sum = X
    generalize (L.map fun g => (if g.1 = k then 2 * g.2.2 * q g.2.1 else 0) - (if g.2.1 = k then 2 * g.2.2 * q k else 0)).sum = Y
    split_ifs <;> push_cast <;> ring

/-- Populations follow the rate equations. -/
theorem populations_rates (p : Pars) (hs : p.Sane) (hγ : ∀ g ∈ p.gammas, 0 ≤ g.gamma) (hη : p.etas = []) (T : ℝ) (hT : 0 ≤ T) (ρ : ℝ → Rho p.nl) (h : Unravel.Solves (mat p.nl p.H) (p.J.map (mat p.nl)) T ρ)
    (q : ℝ → ℕ → ℝ) (hq : Rates p.nl p.decays T q) (h0 : ∀ i : Fin p.nl, (q 0 i : ℂ) = ρ 0 i i) (i : Fin p.nl) : ρ T i i = q T i := by
  let φ : ℝ → Rho p.nl := fun t => Matrix.diagonal fun k => ρ t k k - q t k
  have hφ := sol_unique (mat p.nl p.H) (p.J.map (mat p.nl)) 0 T hT φ fun t a b k l => by
    rw [zero_add] at b
    by_cases hkl : k = l
    · subst hkl
      have h1 := h t a b k k
      rw [generator_diag p hs hγ hη (ρ t) k (fun m => if h : m < p.nl then ρ t ⟨m, h⟩ ⟨m, h⟩ else 0) fun m => dif_pos m.2] at h1
      have h2 := (hq t a b k k.2).ofReal_comp
      rw [generator_diag p hs hγ hη (φ t) k (fun m => (if h : m < p.nl then ρ t ⟨m, h⟩ ⟨m, h⟩ else 0) - q t m) (fun m => by simp [φ])]
      have e : (fun r => φ r k k) = fun r => ρ r k k - (q r k : ℂ) := by funext r; simp [φ]
      rw [e]
      refine (h1.sub h2).congr_deriv ?_
      exact rates_sub (k : ℕ) (q t) p.decays fun m => if h : m < p.nl then ρ t ⟨m, h⟩ ⟨m, h⟩ else 0
    · have e : (fun r => φ r k l) = fun _ => 0 := by funext r; simp [φ, hkl]
      rw [e]
      refine (hasDerivAt_const t (0 : ℂ)).congr_deriv ?_
      rw [generator_apply p hs hγ hη]
      have e' : φ t k l = 0 := by simp [φ, hkl]
      rw [e', mul_zero, zero_add]
      symm
      refine List.sum_eq_zero fun x hx => ?_
      obtain ⟨g, -, rfl⟩ := List.mem_map.1 hx
      exact if_neg fun e => hkl (Fin.ext (e.1.trans e.2.symm))
  have hz : φ 0 = 0 := by
    ext k l
    by_cases hkl : k = l
    · subst hkl; simp [φ, h0]
    · simp [φ, hkl]
  have hsol : sol (mat p.nl p.H) (p.J.map (mat p.nl)) T (0 : Rho p.nl) = 0 := by
    unfold sol
    have : (fun i j => (0 : Rho p.nl) i j) = (0 : Fin p.nl → Fin p.nl → ℂ) := rfl
    rw [this, map_zero]; rfl
  rw [zero_add, hz, hsol] at hφ
  have := congrFun (congrFun hφ i) i
  simp only [φ, Matrix.diagonal_apply_eq, Matrix.zero_apply] at this
  exact sub_eq_zero.1 this

theorem rates_core.{v} (p : Pars) (hs : p.Sane) (hγ : ∀ g ∈ p.gammas, 0 ≤ g.gamma) (hη : p.etas = []) (T : ℝ) (hT : 0 ≤ T) (S : Sys p.nl) (hN : TracksNormalised.{v} S (mat p.nl p.H) (p.J.map (mat p.nl))) : ∃ C, 0 ≤ C ∧
    (∀ rho : Rho p.nl, rho.PosSemidef → rho.trace = 1 → ∃ x, Reached.{v} S C T 0 rho x) ∧
    ∀ ε rho x, Reached.{v} S C T ε rho x →
      (∃ q, Rates p.nl p.decays T q ∧ ∀ i : Fin p.nl, (q 0 i : ℂ) = rho i i) ∧
      (∀ q, Rates p.nl p.decays T q → (∀ i : Fin p.nl, (q 0 i : ℂ) = rho i i) → ∀ i, ‖x i i - q T i‖ ≤ C * ε) ∧
      ∀ i j, i ≠ j → ‖x i j - Complex.exp ((Complex.I * (p.deltas i - p.deltas j) - (p.width i + p.width j)) * T) * rho i j‖ ≤ C * ε := by
  obtain ⟨C, hC, H⟩ := reached_close hN T hT
  refine ⟨C, hC, fun rho a b => reached_exists hN _ T hT rho a b, fun ε rho x hx => ?_⟩
  obtain ⟨a, b, hε, ρ, hρ, hz, hc⟩ := H C ε rho x le_rfl hx
  subst hz
  have ht : (ρ T).trace = (ρ 0).trace := by
    have := decays 0 T hT (fun s => (ρ s).trace) fun t a b => by
      refine (trace_hasDerivAt _ _ t (hρ t a b)).congr_deriv ?_
      rw [(lindblad_traceless_iff _ _).2 (multiLevel_conserving p hs hγ)]
      simp
    simpa using this
  have hnorm : normalised ρ T = ρ T := by
    ext i j
    simp [normalised, ht, b]
  rw [hnorm] at hc
  refine ⟨?_, fun q hq h0 i => ?_, fun i j hij => ?_⟩
  · obtain ⟨q, h1, h2⟩ := rates_exist p hs hγ hη T fun i => if h : i < p.nl then (ρ 0 ⟨i, h⟩ ⟨i, h⟩).re else 0
    refine ⟨q, h1, fun i => ?_⟩
    rw [h2 i i.2, dif_pos i.2]
    apply Complex.ext
    · rfl
    · rw [hermitian_diag a.1]; rfl
  · rw [← populations_rates p hs hγ hη T hT ρ hρ q hq h0 i]
    exact hc i i
  · rw [← coherences_decay p hs hγ hη T hT ρ hρ i j hij]
    exact hc i j

/-- **C170.** Master-equation trajectories of a multilevel system without drives, with any decays, chains and cycles of decays included: the populations at the time `T` are, apart from the error of the stepper, those given
by the classical rate equations with the rates `2γ`, and the coherences decay with the sum of the widths of the two levels and rotate with the difference of the detunings. -/
theorem multiLevel_rates.{v} (p : Pars) (hs : p.Sane) (hγ : ∀ g ∈ p.gammas, 0 ≤ g.gamma) (hη : p.etas = []) (T : ℝ) (hT : 0 ≤ T) : (make p 0).dim = p.nl ∧ ∃ C, 0 ≤ C ∧
    (∀ rho : Rho (make p 0).dim, rho.PosSemidef → rho.trace = 1 → ∃ x, Reached.{v} (make p 0).toSys C T 0 rho x) ∧
    ∀ ε rho x, Reached.{v} (make p 0).toSys C T ε rho x →
      (∃ q, Rates p.nl p.decays T q ∧ ∀ i : Fin (make p 0).dim, (q 0 i : ℂ) = rho i i) ∧
      (∀ q, Rates p.nl p.decays T q → (∀ i : Fin (make p 0).dim, (q 0 i : ℂ) = rho i i) → ∀ i, ‖x i i - q T i‖ ≤ C * ε) ∧
      ∀ i j, i ≠ j → ‖x i j - Complex.exp ((Complex.I * (p.deltas i - p.deltas j) - (p.width i + p.width j)) * T) * rho i j‖ ≤ C * ε := by
  have hm : make p 0 = pumpedLossySch p := by unfold make; simp
  have hF := multiLevel_free p hs hγ
  have hN := element_normalised.{v} hF (fun j _ t => ⟨1, by simp, by simp [uDiag]⟩) (by rw [hm]; rfl)
  rw [hm] at hN ⊢
  exact ⟨rfl, rates_core p hs hγ hη T hT (pumpedLossySch p).toSys hN⟩

/-- The populations of a Λ atom, the decays from the upper level 2 being `γ₀` to the level 0 and `γ₁` to the level 1: the branching ratio. -/
theorem lambda_rates (γ₀ γ₁ : ℝ) (h : γ₀ + γ₁ ≠ 0) (T a b c : ℝ) :
    Rates 3 [(0, 2, γ₀), (1, 2, γ₁)] T fun t i => if i = 0 then a + γ₀ / (γ₀ + γ₁) * (1 - Real.exp (-2 * (γ₀ + γ₁) * t)) * c else if i = 1 then b + γ₁ / (γ₀ + γ₁) * (1 - Real.exp (-2 * (γ₀ + γ₁) * t)) * c
      else Real.exp (-2 * (γ₀ + γ₁) * t) * c := by
  intro t _ _ i hi
  have he : HasDerivAt (fun s : ℝ => Real.exp (-2 * (γ₀ + γ₁) * s)) (-2 * (γ₀ + γ₁) * Real.exp (-2 * (γ₀ + γ₁) * t)) t := by
    have h1 : HasDerivAt (fun s : ℝ => -2 * (γ₀ + γ₁) * s) (-2 * (γ₀ + γ₁)) t := by simpa using (hasDerivAt_id t).const_mul (-2 * (γ₀ + γ₁))
    exact (h1.exp).congr_deriv (by ring)
  have hi3 : i = 0 ∨ i = 1 ∨ i = 2 := by omega
  rcases hi3 with rfl | rfl | rfl
  · simp only [if_true]
    refine ((((he.const_sub 1).const_mul (γ₀ / (γ₀ + γ₁))).mul_const c).const_add a).congr_deriv ?_
    simp
    field_simp
  · simp only [one_ne_zero, if_true, if_false]
    refine ((((he.const_sub 1).const_mul (γ₁ / (γ₀ + γ₁))).mul_const c).const_add b).congr_deriv ?_
    simp
    field_simp
  · simp only [show (2 : ℕ) ≠ 0 by decide, show (2 : ℕ) ≠ 1 by decide, if_false]
    refine (he.mul_const c).congr_deriv ?_
    simp
    ring

/-- A Λ atom meeting the requirements: after a long time in the upper level, a third of the population is in the level 0 and two thirds in the level 1. -/
example (T : ℝ) (hT : 0 ≤ T) : ∃ C, ∀ rho : Rho (make ⟨3, fun i => i, [], [⟨0, 2, 1⟩, ⟨1, 2, 2⟩]⟩ 0).dim, (∀ i, rho i i = if (i : ℕ) = 2 then 1 else 0) → rho.PosSemidef → rho.trace = 1 →
    ∃ x, Reached.{0} (make ⟨3, fun i => i, [], [⟨0, 2, 1⟩, ⟨1, 2, 2⟩]⟩ 0).toSys C T 0 rho x ∧ ∀ i : Fin _, (i : ℕ) = 0 → x i i = ((1 / (1 + 2) * (1 - Real.exp (-2 * (1 + 2) * T)) : ℝ) : ℂ) := by
  have hs : (⟨3, fun i => i, [], [⟨0, 2, 1⟩, ⟨1, 2, 2⟩]⟩ : Pars).Sane := ⟨by simp, by simp⟩
  obtain ⟨hd, C, hC, hx, H⟩ := multiLevel_rates.{0} ⟨3, fun i => i, [], [⟨0, 2, 1⟩, ⟨1, 2, 2⟩]⟩ hs (by simp) rfl T hT
  refine ⟨C, fun rho hr a b => ?_⟩
  obtain ⟨x, hx⟩ := hx rho a b
  refine ⟨x, hx, fun i hi => ?_⟩
  have := (H 0 rho x hx).2.1 _ (lambda_rates 1 2 (by norm_num) T 0 0 1) (fun k => by
    rw [hr]
    have hk : (k : ℕ) < 3 := lt_of_lt_of_eq k.2 hd
    have : (k : ℕ) = 0 ∨ (k : ℕ) = 1 ∨ (k : ℕ) = 2 := by omega
    rcases this with h | h | h <;> simp [h]) i
  rw [mul_zero, norm_le_zero_iff, sub_eq_zero] at this
  rw [this]
  simp [hi]

end CppQED.MultiEl
