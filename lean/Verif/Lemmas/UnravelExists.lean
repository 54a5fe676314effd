import Verif.Lemmas.UnravelPicture
import Verif.Lemmas.UnravelFinish

/-! # An exact stepper for systems in interaction picture -/

namespace CppQED.Unravel
open Matrix MCWF

variable {n : ℕ}

/-- The exact solution from `t` to `t+d`, with `t0` the reference time of the interaction picture. -/
noncomputable def flowFrom (W : Fin n → ℂ) (A : Matrix (Fin n) (Fin n) ℂ) (t0 t d : ℝ) (s : Fin n → ℂ) : Fin n → ℂ :=
  fun i => Complex.exp (W i * (t + d - t0 : ℝ)) * semi (mulMap A) d (fun k => Complex.exp (-(W k * (t - t0 : ℝ))) * s k) i

/-- Any solution is that. -/
theorem flowFrom_unique (W : Fin n → ℂ) (V : Matrix (Fin n) (Fin n) ℂ) (G : ℝ → Matrix (Fin n) (Fin n) ℂ) (t0 t d : ℝ) (hd : 0 ≤ d)
    (hG : ∀ r, (Matrix.diagonal fun i => Complex.exp (-(W i * (r - t0 : ℝ)))) * G r = V * Matrix.diagonal fun i => Complex.exp (-(W i * (r - t0 : ℝ))))
    (φ : ℝ → Fin n → ℂ) (hφ : ∀ r, t ≤ r → r ≤ t + d → ∀ i, HasDerivAt (fun r => φ r i) ((G r *ᵥ φ r) i) r) : φ (t + d) = flowFrom W (V - Matrix.diagonal W) t0 t d (φ t) := by
  set A := V - Matrix.diagonal W with hA
  let χ : ℝ → Fin n → ℂ := fun s k => Complex.exp (-(W k * (t + s - t0 : ℝ))) * φ (t + s) k
  have hχ : ∀ s, 0 ≤ s → s ≤ d → HasDerivAt χ (mulMap A (χ s)) s := by
    intro s h0 h1
    refine hasDerivAt_pi.2 fun i => ?_
    have e1 : HasDerivAt (fun s : ℝ => Complex.exp (-(W i * (t + s - t0 : ℝ)))) (-W i * Complex.exp (-(W i * (t + s - t0 : ℝ)))) s := by
      have := (Master.phaseFactor_hasDerivAt (W i) t0 (t + s)).scomp s ((hasDerivAt_id s).const_add t)
      refine this.congr_deriv ?_
      simp
    have e2 : HasDerivAt (fun s : ℝ => φ (t + s) i) ((G (t + s) *ᵥ φ (t + s)) i) s := by
      have := (hφ (t + s) (by linarith) (by linarith) i).scomp s ((hasDerivAt_id s).const_add t)
      refine this.congr_deriv ?_
      simp
    refine (e1.mul e2).congr_deriv ?_
    have hD : (Matrix.diagonal fun i => Complex.exp (-(W i * (t + s - t0 : ℝ)))) *ᵥ φ (t + s) = χ s := by
      funext k
      rw [Matrix.mulVec_diagonal]
    have h2 : ((Matrix.diagonal fun i => Complex.exp (-(W i * (t + s - t0 : ℝ)))) *ᵥ (G (t + s) *ᵥ φ (t + s))) i = (V *ᵥ χ s) i := by
      rw [Matrix.mulVec_mulVec, hG, ← Matrix.mulVec_mulVec, hD]
    rw [Matrix.mulVec_diagonal] at h2
    rw [h2, mulMap_apply, hA, Matrix.sub_mulVec, Pi.sub_apply, Matrix.mulVec_diagonal]
    show _ = _ - W i * (Complex.exp (-(W i * (t + s - t0 : ℝ))) * φ (t + s) i)
    ring
  have key := semi_unique (mulMap A) d hd χ hχ
  funext i
  have hi := congrFun key i
  have h0 : χ 0 = fun k => Complex.exp (-(W k * (t - t0 : ℝ))) * φ t k := by
    funext k
    simp only [χ, add_zero]
  rw [h0] at hi
  unfold flowFrom
  rw [← hi]
  simp only [χ]
  rw [← mul_assoc, ← Complex.exp_add, add_neg_cancel, Complex.exp_zero, one_mul]

theorem flowFrom_ne_zero (W : Fin n → ℂ) (A : Matrix (Fin n) (Fin n) ℂ) (t0 t d : ℝ) (s : Fin n → ℂ) (hs : s ≠ 0) : flowFrom W A t0 t d s ≠ 0 := by
  intro h
  have h1 : semi (mulMap A) d (fun k => Complex.exp (-(W k * (t - t0 : ℝ))) * s k) = 0 := by
    funext i
    have := congrFun h i
    simpa [flowFrom, Complex.exp_ne_zero] using this
  have h2 : semi (mulMap A) (-d) (semi (mulMap A) d (fun k => Complex.exp (-(W k * (t - t0 : ℝ))) * s k)) = fun k => Complex.exp (-(W k * (t - t0 : ℝ))) * s k := by
    rw [← ContinuousLinearMap.mul_apply, ← semi_add, neg_add_cancel, semi_zero]
    rfl
  rw [h1, map_zero] at h2
  refine hs (funext fun k => ?_)
  have := congrFun h2 k
  simpa [Complex.exp_ne_zero] using this.symm

open Classical in
/-- The exact stepper: it never fails, and suggests unit steps. -/
noncomputable def flowStepper.{v} (W : Fin n → ℂ) (A : Matrix (Fin n) (Fin n) ℂ) (t0 : ℝ) : ODE.Stepper (Fin n → ℂ) PUnit.{v + 1} :=
  fun k s t d => (⟨true, flowFrom W A t0 t d s, t + d, if 0 < d then 1 else -1⟩, k)

theorem flowStepper_good.{v} (S : Master.Sys n) (W : Fin n → ℂ) (V : Matrix (Fin n) (Fin n) ℂ) (G : ℝ → ℝ → Matrix (Fin n) (Fin n) ℂ) (hrhs : ∀ t0 t psi, S.rhs t0 t psi = G t t0 *ᵥ psi)
    (hG : ∀ t t0, (Matrix.diagonal fun i => Complex.exp (-(W i * (t - t0 : ℝ)))) * G t t0 = V * Matrix.diagonal fun i => Complex.exp (-(W i * (t - t0 : ℝ)))) (t0 : ℝ) :
    GoodStepper (flowStepper.{v} W (V - Matrix.diagonal W) t0) (S.rhs t0) 0 where
  controlled := by
    constructor <;> intro k s t d <;> simp only [flowStepper] <;> intros <;> simp_all
    rename_i h
    rw [if_neg (not_lt.2 h.le)]
    norm_num
  nonzero k s t d hs _ := flowFrom_ne_zero W _ t0 t d s hs
  accurate k s t d hd _ _ φ h0 hφ i := by
    have := flowFrom_unique W V (fun r => G r t0) t0 t d hd.le (fun r => hG r t0) φ (fun r h1 h2 i => by rw [← hrhs]; exact hφ r h1 h2 i)
    simp only [flowStepper]
    rw [this, h0, sub_self, norm_zero, zero_mul]

open Classical in
/-- The exact stepper of a system. -/
noncomputable def makeFlow.{v} (S : Master.Sys n) (W : Fin n → ℂ) (A : Matrix (Fin n) (Fin n) ℂ) (f : ℝ → (Fin n → ℂ) → Fin n → ℂ) : ODE.Stepper (Fin n → ℂ) PUnit.{v + 1} :=
  flowStepper W A (if h : ∃ t0, S.rhs t0 = f then h.choose else 0)

theorem makeFlow_good.{v} (S : Master.Sys n) (W : Fin n → ℂ) (V : Matrix (Fin n) (Fin n) ℂ) (G : ℝ → ℝ → Matrix (Fin n) (Fin n) ℂ) (hrhs : ∀ t0 t psi, S.rhs t0 t psi = G t t0 *ᵥ psi)
    (hG : ∀ t t0, (Matrix.diagonal fun i => Complex.exp (-(W i * (t - t0 : ℝ)))) * G t t0 = V * Matrix.diagonal fun i => Complex.exp (-(W i * (t - t0 : ℝ)))) (t0 : ℝ) :
    GoodStepper (makeFlow.{v} S W (V - Matrix.diagonal W) (S.rhs t0)) (S.rhs t0) 0 := by
  have h : ∃ t0', S.rhs t0' = S.rhs t0 := ⟨t0, rfl⟩
  unfold makeFlow
  rw [dif_pos h]
  have := flowStepper_good.{v} S W V G hrhs hG h.choose
  rwa [h.choose_spec] at this

end CppQED.Unravel
