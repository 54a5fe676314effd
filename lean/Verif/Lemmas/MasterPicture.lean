import Verif.Props.Master
import Mathlib.Analysis.Calculus.Deriv.Star
import Mathlib.Analysis.Calculus.Deriv.Mul
import Mathlib.Analysis.SpecialFunctions.ExpDeriv
import Verif.Spec.CompositeMaster

/-! # Lemmas: the Master equation in interaction picture -/

namespace CppQED.Master
open ComplexConjugate Matrix Spec

variable {n : ℕ}

theorem phaseFactor_hasDerivAt (z : ℂ) (t0 t : ℝ) : HasDerivAt (fun s : ℝ => Complex.exp (-(z * (s - t0 : ℝ)))) (-z * Complex.exp (-(z * (t - t0 : ℝ)))) t := by
  have h1 : HasDerivAt (fun s : ℝ => ((s - t0 : ℝ) : ℂ)) 1 t := by
    have := ((hasDerivAt_id t).sub_const t0).ofReal_comp
    simpa using this
  have h2 : HasDerivAt (fun s : ℝ => -(z * ((s - t0 : ℝ) : ℂ))) (-z) t := by
    have := (h1.const_mul z).neg
    rw [mul_one] at this
    exact this
  have h3 := h2.cexp
  rw [mul_comm]
  exact h3

/-- A linear system in the interaction picture of the frequencies `W`, whose exact part commutes with the jumps up to phases. -/
theorem picture_master (S : Sys n) (W : Fin n → ℂ) (V : Rho n) (G U : ℝ → ℝ → Rho n) (nJ : ℕ) (J : ℕ → Rho n) (lin : Linear S G U nJ fun _ => J)
    (hU : ∀ t t0, U t t0 = Matrix.diagonal fun i => Complex.exp (-(W i * (t - t0 : ℝ)))) (hG : ∀ t t0, U t t0 * G t t0 = V * U t t0)
    (hM : ∀ i < nJ, ∀ t t0, ∃ c : ℂ, c * conj c = 1 ∧ U t t0 * J i = c • (J i * U t t0)) : FollowsMaster S (V - Matrix.diagonal W) ((List.range nJ).map J) := by
  intro t0 t rho hrho h i j
  have hex : ∀ s r, exactPart S s t0 r = U s t0 * r * (U s t0)ᴴ := by
    intro s r
    cases hx : S.ex with
    | none =>
      have := lin.ex_none hx s t0
      rw [this]
      simp [exactPart, hx]
    | some f => exact exactPart_eq S f hx s t0 _ (fun psi => lin.ex f hx s psi t0) r
  simp only [hex]
  have hel : ∀ (s : ℝ) (r : Rho n), (U s t0 * r * (U s t0)ᴴ) i j = Complex.exp (-(W i * (s - t0 : ℝ))) * r i j * conj (Complex.exp (-(W j * (s - t0 : ℝ)))) := by
    intro s r
    rw [hU, Matrix.diagonal_conjTranspose, Matrix.mul_diagonal, Matrix.diagonal_mul]; rfl
  simp only [hel]
  have hc : HasDerivAt (fun s : ℝ => conj (Complex.exp (-(W j * (s - t0 : ℝ))))) (conj (-(W j) * Complex.exp (-(W j * (t - t0 : ℝ))))) t := (phaseFactor_hasDerivAt (W j) t0 t).star
  have h2 := ((phaseFactor_hasDerivAt (W i) t0 t).mul (h i j)).mul hc
  refine h2.congr_deriv ?_
  rw [derivative_eq S _ _ _ _ lin t t0 (rho t) hrho]
  set P := U t t0 * rho t * (U t t0)ᴴ with hP
  have key : U t t0 * lindblad (G t t0) ((List.range nJ).map J) (rho t) * (U t t0)ᴴ = lindblad V ((List.range nJ).map J) P := by
    unfold lindblad
    rw [Matrix.mul_add, Matrix.mul_add, Matrix.add_mul, Matrix.add_mul]
    have k1 : U t t0 * (G t t0 * rho t) * (U t t0)ᴴ = V * P := by
      rw [← Matrix.mul_assoc, hG, hP]; simp only [Matrix.mul_assoc]
    have k2 : U t t0 * (rho t * (G t t0)ᴴ) * (U t t0)ᴴ = P * Vᴴ := by
      have : (G t t0)ᴴ * (U t t0)ᴴ = (U t t0)ᴴ * Vᴴ := by
        rw [← Matrix.conjTranspose_mul, ← Matrix.conjTranspose_mul, hG]
      rw [Matrix.mul_assoc, Matrix.mul_assoc, this, hP]
      simp only [Matrix.mul_assoc]
    rw [k1, k2]
    congr 1
    have hj : ∀ k < nJ, U t t0 * (J k * rho t * (J k)ᴴ) * (U t t0)ᴴ = J k * P * (J k)ᴴ := by
      intro k hk
      obtain ⟨c, hc1, hc3⟩ := hM k hk t t0
      have hc4 : (J k)ᴴ * (U t t0)ᴴ = conj c • ((U t t0)ᴴ * (J k)ᴴ) := by
        rw [← Matrix.conjTranspose_mul, hc3, Matrix.conjTranspose_smul, Matrix.conjTranspose_mul]; rfl
      calc U t t0 * (J k * rho t * (J k)ᴴ) * (U t t0)ᴴ = (U t t0 * J k) * rho t * ((J k)ᴴ * (U t t0)ᴴ) := by simp only [Matrix.mul_assoc]
        _ = (c * conj c) • (J k * P * (J k)ᴴ) := by
            rw [hc3, hc4, Matrix.smul_mul, Matrix.smul_mul, Matrix.mul_smul, smul_smul, hP]
            simp only [Matrix.mul_assoc]
        _ = _ := by rw [hc1, one_smul]
    have : ∀ L : List ℕ, (∀ k ∈ L, k < nJ) → U t t0 * ((L.map J).map fun j => j * rho t * jᴴ).sum * (U t t0)ᴴ = ((L.map J).map fun j => j * P * jᴴ).sum := by
      intro L
      induction L with
      | nil => intro _; simp
      | cons k L ih =>
        intro hL
        simp only [List.map_cons, List.sum_cons]
        rw [Matrix.mul_add, Matrix.add_mul, hj k (hL k (by simp)), ih fun x hx => hL x (by simp [hx])]
    exact this _ fun k hk => by simpa using hk
  have hk := congrFun (congrFun key i) j
  rw [hel] at hk
  have hl : lindblad (V - Matrix.diagonal W) ((List.range nJ).map J) P = lindblad V ((List.range nJ).map J) P - Matrix.diagonal W * P - P * (Matrix.diagonal W)ᴴ := by
    unfold lindblad
    rw [Matrix.conjTranspose_sub, Matrix.sub_mul, Matrix.mul_sub]
    abel
  rw [hl, ← key, Matrix.sub_apply, Matrix.sub_apply, hel, Matrix.diagonal_mul, Matrix.diagonal_conjTranspose, Matrix.mul_diagonal, hP, hel]
  simp only [Pi.mul_apply, Pi.star_apply, Complex.star_def, map_mul, map_neg]
  ring

end CppQED.Master
