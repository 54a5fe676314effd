import Verif.Model.DDHO
import Mathlib.Analysis.SpecialFunctions.ExpDeriv
import Mathlib.Analysis.Calculus.Deriv.Prod
import Mathlib.Analysis.ODE.ExistUnique
import Mathlib.Analysis.SpecialFunctions.Trigonometric.Deriv
import Mathlib.Tactic

/-!
# The reference solution of the driven damped harmonic oscillator: C50
-/

namespace CppQED.Spec

/-- `y` with derivative `y'` solves `y'' + 2γ y' + y = exp(iωt)` and takes the initial values at `t₀`. -/
def SolvesDDHO (γ ω t₀ : ℝ) (y₀ y₀' : ℂ) (y y' : ℝ → ℂ) : Prop :=
  y t₀ = y₀ ∧ y' t₀ = y₀' ∧ (∀ t, HasDerivAt y (y' t) t) ∧ ∀ t : ℝ, HasDerivAt y' (Complex.exp (Complex.I * ω * t) - 2 * γ * y' t - y t) t

end CppQED.Spec

namespace CppQED.DDHO
open Complex CppQED.Spec

theorem denominator_ne {γ ω : ℝ} (h : ¬ (γ = 0 ∧ (ω = 1 ∨ ω = -1))) : (1 + 2 * I * γ * ω - ω ^ 2 : ℂ) ≠ 0 := by
  intro e
  apply h
  have h1 := congrArg re e
  have h2 := congrArg im e
  simp [pow_two] at h1 h2
  have hω : ω = 1 ∨ ω = -1 := by
    have : (ω - 1) * (ω + 1) = 0 := by linarith
    rcases mul_eq_zero.1 this with h | h
    · left; linarith
    · right; linarith
  refine ⟨?_, hω⟩
  rcases h2 with h | h
  · exact h
  · rw [h] at hω; norm_num at hω

theorem exp_deriv (z : ℂ) (t : ℝ) : HasDerivAt (fun t : ℝ => exp (z * t)) (z * exp (z * t)) t := by
  have h1 : HasDerivAt (fun t : ℝ => z * (t : ℂ)) z t := by simpa using (Complex.ofRealCLM.hasDerivAt (x := t)).const_mul z
  have := h1.cexp
  rwa [mul_comm] at this

theorem c_deriv (γ ω t : ℝ) : HasDerivAt (c γ ω) (I * ω * c γ ω t) t := by
  unfold c
  have := (exp_deriv (I * ω) t).div_const (1 + 2 * I * γ * ω - ω ^ 2 : ℂ)
  rwa [mul_div_assoc] at this

theorem c_eq {γ ω : ℝ} (h : ¬ (γ = 0 ∧ (ω = 1 ∨ ω = -1))) (t : ℝ) : I * ω * (I * ω * c γ ω t) + 2 * γ * (I * ω * c γ ω t) + c γ ω t = exp (I * ω * t) := by
  have hd := denominator_ne h
  have e : c γ ω t * (1 + 2 * I * γ * ω - ω ^ 2) = exp (I * ω * t) := div_mul_cancel₀ _ hd
  linear_combination e + (c γ ω t * ω ^ 2) * I_sq

theorem sqrt_sq (x : ℂ) : (x ^ ((1 / 2 : ℂ))) ^ 2 = x := by
  have := Complex.cpow_nat_inv_pow x (n := 2) (by norm_num)
  rw [show ((1 : ℂ) / 2) = ((2 : ℕ) : ℂ)⁻¹ by norm_num]
  exact this

theorem coeffs_spec {γ ω : ℝ} {m : Matrix (Fin 2) (Fin 2) ℂ} (hm : m.det ≠ 0) (p q : ℂ) (t : ℝ) :
    m 0 0 * coeffs γ ω m p q t 0 + m 0 1 * coeffs γ ω m p q t 1 = p - c γ ω t ∧ m 1 0 * coeffs γ ω m p q t 0 + m 1 1 * coeffs γ ω m p q t 1 = q - I * ω * c γ ω t := by
  have h : m.mulVec (coeffs γ ω m p q t) = ![p - c γ ω t, q - I * ω * c γ ω t] := by
    unfold coeffs
    rw [Matrix.mulVec_mulVec, Matrix.mul_nonsing_inv _ (isUnit_iff_ne_zero.2 hm), Matrix.one_mulVec]
  have h0 := congrFun h 0
  have h1 := congrFun h 1
  simp [Matrix.mulVec, dotProduct, Fin.sum_univ_two] at h0 h1
  exact ⟨h0, h1⟩

theorem ddho_solves {γ ω : ℝ} (h : ¬ (γ = 0 ∧ (ω = 1 ∨ ω = -1))) (h1 : γ ≠ 1) (h2 : γ ≠ -1) (p q : ℂ) (t₀ : ℝ) :
    SolvesDDHO γ ω t₀ p q (ddho γ ω p q t₀).amp (ddho γ ω p q t₀).ampDeriv := by
  set s : ℂ := ((γ ^ 2 - 1 : ℝ) : ℂ) ^ ((1 / 2 : ℂ)) with hs
  have hss : s ^ 2 = γ ^ 2 - 1 := by rw [hs, sqrt_sq]; push_cast; ring
  have hs0 : s ≠ 0 := by
    intro e
    rw [e] at hss
    have : ((γ ^ 2 - 1 : ℝ) : ℂ) = 0 := by push_cast; rw [← hss]; ring
    have : (γ - 1) * (γ + 1) = 0 := by have := Complex.ofReal_eq_zero.1 this; linarith
    rcases mul_eq_zero.1 this with h | h
    · exact h1 (by linarith)
    · exact h2 (by linarith)
  have e1 : (-γ + s) ^ 2 + 2 * γ * (-γ + s) + 1 = 0 := by linear_combination hss
  have e2 : (-γ - s) ^ 2 + 2 * γ * (-γ - s) + 1 = 0 := by linear_combination hss
  set m : Matrix (Fin 2) (Fin 2) ℂ := !![exp ((-γ + s) * t₀), exp ((-γ - s) * t₀); (-γ + s) * exp ((-γ + s) * t₀), (-γ - s) * exp ((-γ - s) * t₀)] with hm
  have hdet : m.det ≠ 0 := by
    rw [hm, Matrix.det_fin_two_of]
    have : exp ((-γ + s) * t₀) * ((-γ - s) * exp ((-γ - s) * t₀)) - exp ((-γ - s) * t₀) * ((-γ + s) * exp ((-γ + s) * t₀)) = -2 * s * (exp ((-γ + s) * t₀) * exp ((-γ - s) * t₀)) := by ring
    rw [this]
    exact mul_ne_zero (mul_ne_zero (by norm_num) hs0) (mul_ne_zero (exp_ne_zero _) (exp_ne_zero _))
  obtain ⟨i0, i1⟩ := coeffs_spec (γ := γ) (ω := ω) hdet p q t₀
  set a := coeffs γ ω m p q t₀ with ha
  have hamp : (ddho γ ω p q t₀).amp = fun t : ℝ => exp ((-γ + s) * t) * a 0 + exp ((-γ - s) * t) * a 1 + c γ ω t := rfl
  have hder : (ddho γ ω p q t₀).ampDeriv = fun t : ℝ => (-γ + s) * exp ((-γ + s) * t) * a 0 + (-γ - s) * exp ((-γ - s) * t) * a 1 + I * ω * c γ ω t := rfl
  have h00 : m 0 0 = exp ((-γ + s) * t₀) := rfl
  have h01 : m 0 1 = exp ((-γ - s) * t₀) := rfl
  have h10 : m 1 0 = (-γ + s) * exp ((-γ + s) * t₀) := rfl
  have h11 : m 1 1 = (-γ - s) * exp ((-γ - s) * t₀) := rfl
  rw [h00, h01] at i0
  rw [h10, h11] at i1
  rw [hamp, hder]
  refine ⟨by dsimp only; linear_combination i0, by dsimp only; linear_combination i1, fun t => ?_, fun t => ?_⟩
  · exact (((exp_deriv _ t).mul_const (a 0)).add ((exp_deriv _ t).mul_const (a 1))).add (c_deriv γ ω t)
  · have hd := ((((exp_deriv (-γ + s) t).const_mul (-γ + s)).mul_const (a 0)).add (((exp_deriv (-γ - s) t).const_mul (-γ - s)).mul_const (a 1))).add ((c_deriv γ ω t).const_mul (I * ω))
    refine hd.congr_deriv ?_
    have hc := c_eq h t
    linear_combination (exp ((-γ + s) * t) * a 0) * e1 + (exp ((-γ - s) * t) * a 1) * e2 + hc

theorem critical_solves (ω : ℝ) (p q : ℂ) (t₀ : ℝ) : SolvesDDHO 1 ω t₀ p q (ddhoCritical ω p q t₀).amp (ddhoCritical ω p q t₀).ampDeriv := by
  set m : Matrix (Fin 2) (Fin 2) ℂ := !![exp (-t₀), t₀ * exp (-t₀); -exp (-t₀), -(t₀ - 1) * exp (-t₀)] with hm
  have hdet : m.det ≠ 0 := by
    rw [hm, Matrix.det_fin_two_of]
    have : exp (-t₀) * (-(t₀ - 1) * exp (-t₀)) - t₀ * exp (-t₀) * -exp (-t₀) = exp (-(t₀ : ℂ)) * exp (-(t₀ : ℂ)) := by ring
    rw [this]
    exact mul_ne_zero (exp_ne_zero _) (exp_ne_zero _)
  obtain ⟨i0, i1⟩ := coeffs_spec (γ := 1) (ω := ω) hdet p q t₀
  set a := coeffs 1 ω m p q t₀ with ha
  have hamp : (ddhoCritical ω p q t₀).amp = fun t : ℝ => exp (-t) * a 0 + t * exp (-t) * a 1 + c 1 ω t := rfl
  have hder : (ddhoCritical ω p q t₀).ampDeriv = fun t : ℝ => -exp (-t) * a 0 - (t - 1) * exp (-t) * a 1 + I * ω * c 1 ω t := rfl
  have h00 : m 0 0 = exp (-t₀) := rfl
  have h01 : m 0 1 = t₀ * exp (-t₀) := rfl
  have h10 : m 1 0 = -exp (-t₀) := rfl
  have h11 : m 1 1 = -(t₀ - 1) * exp (-t₀) := rfl
  rw [h00, h01] at i0
  rw [h10, h11] at i1
  have hE : ∀ t : ℝ, HasDerivAt (fun t : ℝ => exp (-(t : ℂ))) (-exp (-(t : ℂ))) t := fun t => by
    have := exp_deriv (-1) t
    simpa using this
  have hT : ∀ t : ℝ, HasDerivAt (fun t : ℝ => (t : ℂ)) 1 t := fun t => Complex.ofRealCLM.hasDerivAt (x := t)
  rw [hamp, hder]
  refine ⟨by dsimp only; linear_combination i0, by dsimp only; linear_combination i1, fun t => ?_, fun t => ?_⟩
  · have hd := (((hE t).mul_const (a 0)).add (((hT t).mul (hE t)).mul_const (a 1))).add (c_deriv 1 ω t)
    refine hd.congr_deriv ?_
    ring
  · have hd := ((((hE t).neg).mul_const (a 0)).sub ((((hT t).sub_const 1).mul (hE t)).mul_const (a 1))).add ((c_deriv 1 ω t).const_mul (I * ω))
    refine hd.congr_deriv ?_
    have hc := c_eq (γ := 1) (ω := ω) (by norm_num) t
    push_cast at hc ⊢
    linear_combination hc

/-- **C50.** In all three regimes of damping, for all initial values at all initial times: the object made solves the differential equation. Excluded are the resonantly driven undamped oscillator and `γ=-1`. -/
theorem make_solves {γ ω : ℝ} (h : ¬ (γ = 0 ∧ (ω = 1 ∨ ω = -1))) (h2 : γ ≠ -1) (p q : ℂ) (t₀ : ℝ) : SolvesDDHO γ ω t₀ p q (make γ ω p q t₀).amp (make γ ω p q t₀).ampDeriv := by
  unfold make
  split_ifs with h1
  · subst h1; exact critical_solves ω p q t₀
  · exact ddho_solves h h1 h2 p q t₀

/-- Two solutions of the differential equation with the same initial values are the same at all times. -/
theorem unique {γ ω t₀ : ℝ} {p q : ℂ} {y y' z z' : ℝ → ℂ} (hy : SolvesDDHO γ ω t₀ p q y y') (hz : SolvesDDHO γ ω t₀ p q z z') : y = z := by
  obtain ⟨a1, a2, a3, a4⟩ := hy
  obtain ⟨b1, b2, b3, b4⟩ := hz
  let L : ℂ × ℂ →L[ℝ] ℂ × ℂ := (ContinuousLinearMap.snd ℝ ℂ ℂ).prod ((-(2 * γ)) • ContinuousLinearMap.snd ℝ ℂ ℂ - ContinuousLinearMap.fst ℝ ℂ ℂ)
  let v : ℝ → ℂ × ℂ → ℂ × ℂ := fun t x => L x + (0, exp (I * ω * t))
  have hv : ∀ t, LipschitzWith ‖L‖₊ (v t) := fun t => by
    have := L.lipschitz
    intro x x'
    simpa [v] using this x x'
  have hf : ∀ (y y' : ℝ → ℂ), (∀ t, HasDerivAt y (y' t) t) → (∀ t : ℝ, HasDerivAt y' (exp (I * ω * t) - 2 * γ * y' t - y t) t) → ∀ t, HasDerivAt (fun t => (y t, y' t)) (v t (y t, y' t)) t := by
    intro y y' h1 h2 t
    refine ((h1 t).prodMk (h2 t)).congr_deriv ?_
    simp only [v, L, ContinuousLinearMap.prod_apply, ContinuousLinearMap.coe_snd', ContinuousLinearMap.sub_apply, ContinuousLinearMap.smul_apply, ContinuousLinearMap.coe_fst', Prod.mk_add_mk, Prod.mk.injEq]
    refine ⟨by simp, ?_⟩
    rw [Complex.real_smul]; push_cast; ring
  have := ODE_solution_unique_univ (v := v) (s := fun _ => Set.univ) (K := ‖L‖₊) (t₀ := t₀) (fun t => (hv t).lipschitzOnWith) (fun t => ⟨hf y y' a3 a4 t, Set.mem_univ _⟩) (fun t => ⟨hf z z' b3 b4 t, Set.mem_univ _⟩) (by simp [a1, a2, b1, b2])
  funext t
  exact congrArg Prod.fst (congrFun this t)

/-- **C50.** It is the only solution. -/
theorem make_unique {γ ω : ℝ} (h : ¬ (γ = 0 ∧ (ω = 1 ∨ ω = -1))) (h2 : γ ≠ -1) {p q : ℂ} {t₀ : ℝ} {y y' : ℝ → ℂ} (hy : SolvesDDHO γ ω t₀ p q y y') : y = (make γ ω p q t₀).amp :=
  unique hy (make_solves h h2 p q t₀)

/-- **C50.** The excluded undamped, resonantly driven oscillator does have a solution (`γ=0`, `ω=1`), in the program the denominator of `c` is zero. -/
theorem resonant_solution : SolvesDDHO 0 1 0 0 0 (fun t : ℝ => -I / 2 * t * exp (I * t) + I / 2 * Complex.sin t) (fun t : ℝ => -I / 2 * exp (I * t) + t / 2 * exp (I * t) + I / 2 * Complex.cos t) := by
  have hT : ∀ t : ℝ, HasDerivAt (fun t : ℝ => (t : ℂ)) 1 t := fun t => Complex.ofRealCLM.hasDerivAt (x := t)
  have hE := fun t : ℝ => exp_deriv I t
  have hS : ∀ t : ℝ, HasDerivAt (fun t : ℝ => Complex.sin (t : ℂ)) (Complex.cos t) t := fun t => by
    have := (Complex.hasDerivAt_sin (t : ℂ)).comp_ofReal
    exact this
  have hC : ∀ t : ℝ, HasDerivAt (fun t : ℝ => Complex.cos (t : ℂ)) (-Complex.sin t) t := fun t => by
    have := (Complex.hasDerivAt_cos (t : ℂ)).comp_ofReal
    exact this
  refine ⟨by simp, by simp; ring, fun t => ?_, fun t => ?_⟩
  · refine ((((hT t).const_mul (-I / 2)).mul (hE t)).add ((hS t).const_mul (I / 2))).congr_deriv ?_
    linear_combination (-(t : ℂ) / 2 * exp (I * t)) * I_sq
  · refine ((((hE t).const_mul (-I / 2)).add (((hT t).div_const 2).mul (hE t))).add ((hC t).const_mul (I / 2))).congr_deriv ?_
    push_cast
    rw [mul_one]
    linear_combination (-1 / 2 * exp (I * t)) * I_sq

/-- **C50.** The excluded `γ=-1`: the two exponents coincide, and no coefficients, whatever the solver of the linear equations does, fulfil the initial conditions in general. -/
theorem minusOne_unsolvable (ω t₀ : ℝ) : ∃ p q : ℂ, ∀ a : Fin 2 → ℂ,
    let s : ℂ := (((-1 : ℝ) ^ 2 - 1 : ℝ) : ℂ) ^ ((1 / 2 : ℂ))
    ¬ (exp ((-(-1) + s) * t₀) * a 0 + exp ((-(-1) - s) * t₀) * a 1 + c (-1) ω t₀ = p ∧
      (-(-1) + s) * exp ((-(-1) + s) * t₀) * a 0 + (-(-1) - s) * exp ((-(-1) - s) * t₀) * a 1 + I * ω * c (-1) ω t₀ = q) := by
  refine ⟨c (-1) ω t₀, I * ω * c (-1) ω t₀ + 1, fun a => ?_⟩
  dsimp only
  have hs : (((-1 : ℝ) ^ 2 - 1 : ℝ) : ℂ) ^ ((1 / 2 : ℂ)) = 0 := by simp
  rw [hs]
  rintro ⟨h1, h2⟩
  simp at h1 h2
  rw [h1] at h2
  exact zero_ne_one (α := ℂ) (by linear_combination h2)

example : SolvesDDHO 2 3 1 1 I (make 2 3 1 I 1).amp (make 2 3 1 I 1).ampDeriv := make_solves (by norm_num) (by norm_num) _ _ _

end CppQED.DDHO
