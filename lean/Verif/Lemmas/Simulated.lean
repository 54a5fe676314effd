import Verif.Spec.Simulated
import Verif.Lemmas.UnravelEstimate
import Mathlib.Analysis.ODE.Gronwall
import Mathlib.MeasureTheory.Integral.IntervalIntegral.FundThmCalculus

/-! # Auxiliary facts on the integration of ordinary differential equations -/

namespace CppQED.Simulated

variable {n : ℕ} {E : Type} [NormedAddCommGroup E] [NormedSpace ℝ E] {κ : Type*}

/-- From any value at any time there is a solution for all times. -/
def HasFlow (f : ℝ → (Fin n → E) → Fin n → E) : Prop := ∀ (t0 : ℝ) (s : Fin n → E), ∃ φ : ℝ → Fin n → E, φ t0 = s ∧ ∀ r, HasDerivAt φ (f r (φ r)) r

/-- Affine equations with continuous inhomogeneity have solutions for all times. -/
theorem affine_hasFlow [FiniteDimensional ℝ E] (A : (Fin n → E) →L[ℝ] Fin n → E) (b : ℝ → Fin n → E) (hb : Continuous b) (f : ℝ → (Fin n → E) → Fin n → E) (hf : ∀ t y, f t y = A y + b t) : HasFlow f := by
  intro t0 s
  haveI : CompleteSpace (Fin n → E) := FiniteDimensional.complete ℝ _
  let g : ℝ → Fin n → E := fun u => Unravel.semi A (-(u - t0)) (b u)
  have hcs : Continuous fun u => Unravel.semi A u := continuous_iff_continuousAt.2 fun u => (Unravel.hasDerivAt_semi A u).continuousAt
  have hg : Continuous g := (hcs.comp (by fun_prop : Continuous fun u : ℝ => -(u - t0))).clm_apply hb
  refine ⟨fun r => Unravel.semi A (r - t0) (s + ∫ u in t0..r, g u), by simp [Unravel.semi_zero], fun r => ?_⟩
  have h1 : HasDerivAt (fun r => Unravel.semi A (r - t0)) (A * Unravel.semi A (r - t0)) r := by
    have := HasDerivAt.scomp r (Unravel.hasDerivAt_semi A (r - t0)) ((hasDerivAt_id r).sub_const t0)
    rw [one_smul] at this
    exact this
  have h2 : HasDerivAt (fun r => s + ∫ u in t0..r, g u) (g r) r :=
    (intervalIntegral.integral_hasDerivAt_right (hg.intervalIntegrable _ _) (hg.stronglyMeasurableAtFilter _ _) hg.continuousAt).const_add s
  refine (h1.clm_apply h2).congr_deriv ?_
  have h3 : Unravel.semi A (r - t0) (g r) = b r := by
    show (Unravel.semi A (r - t0) * Unravel.semi A (-(r - t0))) (b r) = b r
    rw [← Unravel.semi_add, add_neg_cancel, Unravel.semi_zero]
    rfl
  rw [h3, hf]
  rfl

theorem trajectories_dist {K : NNReal} {f : ℝ → (Fin n → E) → Fin n → E} (hK : ∀ t, LipschitzWith K (f t)) {φ y : ℝ → Fin n → E} {a b : ℝ} (hab : a ≤ b) (hφ : ∀ r, a ≤ r → r ≤ b → HasDerivAt φ (f r (φ r)) r)
    (hy : ∀ r, a ≤ r → r ≤ b → HasDerivAt y (f r (y r)) r) : ‖φ b - y b‖ ≤ ‖φ a - y a‖ * Real.exp (K * (b - a)) := by
  have := dist_le_of_trajectories_ODE hK (f := φ) (g := y) (a := a) (b := b) (δ := ‖φ a - y a‖) (fun r hr => (hφ r hr.1 hr.2).continuousAt.continuousWithinAt) (fun r hr => (hφ r hr.1 hr.2.le).hasDerivWithinAt)
    (fun r hr => (hy r hr.1 hr.2).continuousAt.continuousWithinAt) (fun r hr => (hy r hr.1 hr.2.le).hasDerivWithinAt) (by rw [dist_eq_norm]) b ⟨hab, le_rfl⟩
  rwa [dist_eq_norm] at this

/-- One step. -/
theorem step_error {K : NNReal} {f : ℝ → (Fin n → E) → Fin n → E} (hK : ∀ t, LipschitzWith K (f t)) (hflow : HasFlow f) (solver : (ℝ → (Fin n → E) → Fin n → E) → ODE.Stepper (Fin n → E) κ) (ε : ℝ)
    (hs : GoodSolver (solver f) f ε) (fuel : ℕ) (deltaT : ℝ) (h0 : 0 < deltaT) (x x' : St n E κ) (htry : 0 < x.ode.dtTry) (h : step solver f fuel deltaT x = some x') :
    x.t < x'.t ∧ x'.t ≤ x.t + deltaT ∧ 0 < x'.ode.dtTry ∧ x'.labels = x.labels ∧ ∀ y : ℝ → Fin n → E, (∀ r, x.t ≤ r → r ≤ x'.t → HasDerivAt y (f r (y r)) r) →
      ‖x'.state - y x'.t‖ ≤ ε * (x'.t - x.t) * (1 + ‖x.state‖) + ‖x.state - y x.t‖ * Real.exp (K * (x'.t - x.t)) := by
  unfold step at h
  obtain ⟨⟨s', t', e'⟩, h1, h2⟩ := Option.map_eq_some_iff.1 h
  subst h2
  obtain ⟨a1, a2, a3, -, a5, -, ⟨k', a7, a8, -⟩, -⟩ := ODE.step_forward _ hs.controlled fuel deltaT h0 x.ode htry x.state x.t s' t' e' h1
  refine ⟨by simp only; linarith, by simp only; linarith, a5, rfl, fun y hy => ?_⟩
  simp only at hy ⊢
  obtain ⟨φ, hφ0, hφ⟩ := hflow x.t x.state
  have h3 := hs.accurate k' x.state x.t e'.dtDid a2 a7 φ hφ0 fun r _ _ => hφ r
  rw [← a8, ← a1] at h3
  have h4 := trajectories_dist hK (a := x.t) (b := t') (by linarith) (fun r _ _ => hφ r) hy
  rw [hφ0] at h4
  have h5 : t' - x.t = e'.dtDid := by rw [a1]; ring
  rw [h5] at h4 ⊢
  calc ‖s' - y t'‖ ≤ ‖s' - φ t'‖ + ‖φ t' - y t'‖ := norm_sub_le_norm_sub_add_norm_sub _ _ _
    _ ≤ _ := add_le_add h3 h4

/-- The invariant: the error after the time `t`. -/
structure Near (y : ℝ → Fin n → E) (M Λ ε : ℝ) (x : St n E κ) : Prop where
  time : 0 ≤ x.t
  positive : 0 < x.ode.dtTry
  error : ‖x.state - y x.t‖ ≤ ε * (1 + M) * (x.t * Real.exp (Λ * x.t))

theorem near_step {K : NNReal} {f : ℝ → (Fin n → E) → Fin n → E} (hK : ∀ t, LipschitzWith K (f t)) (hflow : HasFlow f) (solver : (ℝ → (Fin n → E) → Fin n → E) → ODE.Stepper (Fin n → E) κ) (ε : ℝ)
    (hs : GoodSolver (solver f) f ε) (hε : 0 ≤ ε) (hε1 : ε ≤ 1) {T M : ℝ} {y : ℝ → Fin n → E} (hy : Solves f T y) (hM0 : 0 ≤ M) (hM : ∀ t, 0 ≤ t → t ≤ T → ‖y t‖ ≤ M) (fuel : ℕ) (deltaT : ℝ) (h0 : 0 < deltaT) (x x' : St n E κ)
    (hx : Near y M (K + 1) ε x) (hT : x.t + deltaT ≤ T) (h : step solver f fuel deltaT x = some x') : Near y M (K + 1) ε x' ∧ x.t < x'.t ∧ x'.t ≤ x.t + deltaT := by
  obtain ⟨a1, a2, a3, -, a4⟩ := step_error hK hflow solver ε hs fuel deltaT h0 x x' hx.positive h
  refine ⟨⟨by linarith [hx.time], a3, ?_⟩, a1, a2⟩
  have h1 := a4 y fun r hr hr' => hy r (by linarith [hx.time]) (by linarith)
  set τ := x'.t - x.t with hτ
  have hτ0 : 0 ≤ τ := by linarith
  have h2 : ‖x.state‖ ≤ M + ‖x.state - y x.t‖ := by
    have e : x.state = y x.t + (x.state - y x.t) := by abel
    calc ‖x.state‖ = ‖y x.t + (x.state - y x.t)‖ := by rw [← e]
      _ ≤ ‖y x.t‖ + ‖x.state - y x.t‖ := norm_add_le _ _
      _ ≤ _ := add_le_add (hM _ hx.time (by linarith)) le_rfl
  have h3 := hx.error
  set δ := ‖x.state - y x.t‖ with hδ
  have hδ0 : 0 ≤ δ := norm_nonneg _
  have e1 : Real.exp (K * τ) * (1 + τ) ≤ Real.exp ((K + 1) * τ) := by
    rw [add_mul, one_mul, Real.exp_add]
    exact mul_le_mul_of_nonneg_left (by linarith [Real.add_one_le_exp τ]) (Real.exp_pos _).le
  have e2 : 1 ≤ Real.exp (K * τ) := Real.one_le_exp (by positivity)
  have e3 : ε * τ * (1 + ‖x.state‖) ≤ ε * τ * (1 + M) + τ * δ := by
    have : ε * τ * (1 + ‖x.state‖) ≤ ε * τ * (1 + (M + δ)) := mul_le_mul_of_nonneg_left (by linarith) (by positivity)
    have h5 : ε * τ * δ ≤ 1 * τ * δ := by gcongr
    nlinarith
  have e4 : τ * δ + δ * Real.exp (K * τ) ≤ δ * Real.exp ((K + 1) * τ) := by
    have : δ * (Real.exp (K * τ) * (1 + τ)) ≤ δ * Real.exp ((K + 1) * τ) := mul_le_mul_of_nonneg_left e1 hδ0
    have h5 : τ * δ * 1 ≤ τ * δ * Real.exp (K * τ) := mul_le_mul_of_nonneg_left e2 (by positivity)
    nlinarith
  have hx' : x'.t = x.t + τ := by rw [hτ]; ring
  have e5 : δ * Real.exp ((K + 1) * τ) ≤ ε * (1 + M) * (x.t * Real.exp ((K + 1) * x'.t)) := by
    refine (mul_le_mul_of_nonneg_right h3 (Real.exp_pos _).le).trans (le_of_eq ?_)
    rw [hx', mul_add ((K : ℝ) + 1), Real.exp_add]
    ring
  have e6 : 1 ≤ Real.exp ((K + 1) * x'.t) := Real.one_le_exp (by have := hx.time; rw [hx']; positivity)
  have e7 : ε * τ * (1 + M) * 1 ≤ ε * τ * (1 + M) * Real.exp ((K + 1) * x'.t) := mul_le_mul_of_nonneg_left e6 (by positivity)
  calc ‖x'.state - y x'.t‖ ≤ ε * τ * (1 + M) + δ * Real.exp ((K + 1) * τ) := by linarith
    _ ≤ ε * τ * (1 + M) * Real.exp ((K + 1) * x'.t) + ε * (1 + M) * (x.t * Real.exp ((K + 1) * x'.t)) := by linarith
    _ = ε * (1 + M) * (x'.t * Real.exp ((K + 1) * x'.t)) := by rw [hx']; ring

theorem advance_invariant (solver : (ℝ → (Fin n → E) → Fin n → E) → ODE.Stepper (Fin n → E) κ) (f : ℝ → (Fin n → E) → Fin n → E) (fuel : ℕ) (endTime : ℝ) (P : St n E κ → Prop)
    (hP : ∀ (x y : St n E κ), P x → x.t < endTime → step solver f fuel (endTime - x.t) x = some y → P y ∧ y.t ≤ endTime) (N : ℕ) (x y : St n E κ) (hx : P x) (ht : x.t ≤ endTime)
    (h : advanceLoop solver f fuel endTime N x = some y) : P y ∧ y.t = endTime := by
  induction N generalizing x with
  | zero =>
    unfold advanceLoop at h
    split_ifs at h with h1
    injection h with h; subst h
    exact ⟨hx, by linarith⟩
  | succ N ih =>
    unfold advanceLoop at h
    split_ifs at h with h1
    · injection h with h; subst h
      exact ⟨hx, by linarith⟩
    · obtain ⟨z, hz, hzy⟩ := Option.bind_eq_some_iff.1 h
      have hlt : x.t < endTime := lt_of_le_of_ne ht fun h => h1 (by rw [h]; ring)
      obtain ⟨p1, p2⟩ := hP x z hx hlt hz
      exact ih z p1 p2 hzy

theorem run_invariant (solver : (ℝ → (Fin n → E) → Fin n → E) → ODE.Stepper (Fin n → E) κ) (f : ℝ → (Fin n → E) → Fin n → E) (fuel N : ℕ) (T Dt : ℝ) (hDt : 0 < Dt) (P : St n E κ → Prop)
    (hP : ∀ (x y : St n E κ) (d : ℝ), P x → x.t + d ≤ T → 0 < d → step solver f fuel d x = some y → P y ∧ x.t < y.t ∧ y.t ≤ x.t + d) (m : ℕ) (x y : St n E κ) (hx : P x) (ht : x.t ≤ T)
    (h : runTo solver f fuel N T Dt m x = some y) : P y ∧ y.t = T := by
  induction m generalizing x with
  | zero =>
    unfold runTo at h
    split_ifs at h with h1
    injection h with h; subst h
    exact ⟨hx, le_antisymm ht (not_lt.1 h1)⟩
  | succ m ih =>
    unfold runTo at h
    split_ifs at h with h1
    · obtain ⟨z, hz, hzy⟩ := Option.bind_eq_some_iff.1 h
      have hmin : x.t + min Dt (T - x.t) ≤ T := by have := min_le_right Dt (T - x.t); linarith
      have hpos : 0 < min Dt (T - x.t) := lt_min hDt (by linarith)
      obtain ⟨⟨p1, -⟩, p2⟩ := advance_invariant solver f fuel (x.t + min Dt (T - x.t)) (fun z => P z ∧ x.t ≤ z.t) (fun a b ha hlt hab => by
        obtain ⟨q1, q2, q3⟩ := hP a b _ ha.1 (by linarith) (by linarith) hab
        exact ⟨⟨q1, by linarith [ha.2]⟩, by linarith⟩) N x z ⟨hx, le_rfl⟩ (by linarith) hz
      exact ih z p1 (by rw [p2]; exact hmin) hzy
    · injection h with h; subst h
      exact ⟨hx, le_antisymm ht (not_lt.1 h1)⟩

/-! ## An exact stepper -/

open Classical in
/-- The exact stepper: it follows the flow, never fails, and suggests unit steps. -/
noncomputable def exactStepper.{v} (flow : ℝ → (Fin n → E) → ℝ → Fin n → E) : ODE.Stepper (Fin n → E) PUnit.{v + 1} :=
  fun k s t d => (⟨true, flow t s (t + d), t + d, if 0 < d then 1 else -1⟩, k)

theorem exactStepper_good.{v} {K : NNReal} {f : ℝ → (Fin n → E) → Fin n → E} (hK : ∀ t, LipschitzWith K (f t)) (flow : ℝ → (Fin n → E) → ℝ → Fin n → E)
    (hflow : ∀ t s, flow t s t = s ∧ ∀ r, HasDerivAt (flow t s) (f r (flow t s r)) r) : GoodSolver (exactStepper.{v} flow) f 0 where
  controlled := by
    constructor <;> intro k s t d <;> simp only [exactStepper] <;> intros <;> simp_all
    rename_i h
    rw [if_neg (not_lt.2 h.le)]
    norm_num
  accurate k s t d hd _ φ h0 hφ := by
    have := trajectories_dist hK (a := t) (b := t + d) (by linarith) (fun r _ _ => (hflow t s).2 r) hφ
    rw [(hflow t s).1, h0, sub_self, norm_zero, zero_mul] at this
    simpa [exactStepper] using this

/-- With the exact stepper a step of a trajectory makes the full interval. -/
theorem exact_step.{v} (flow : ℝ → (Fin n → E) → ℝ → Fin n → E) (f : ℝ → (Fin n → E) → Fin n → E) (fuel : ℕ) (hf : 0 < fuel) (d : ℝ) (hd : 0 < d) (x : St n E PUnit.{v + 1}) (hx : d ≤ x.ode.dtTry) :
    ∃ y, step (fun _ => exactStepper.{v} flow) f fuel d x = some y ∧ y.t = x.t + d ∧ min 1 x.ode.dtTry ≤ y.ode.dtTry := by
  have hft : ODE.firstTry d x.ode.dtTry x.ode.dtDid = d := by
    unfold ODE.firstTry
    have htry : 0 < x.ode.dtTry := lt_of_lt_of_le hd hx
    rw [sign_pos hd, sign_pos htry]
    simp only [ne_eq, not_true_eq_false, if_false, abs_of_pos hd, abs_of_pos htry]
    by_cases h : x.ode.dtTry > d
    · rw [if_pos h]
    · rw [if_neg h]; linarith
  obtain ⟨fuel, rfl⟩ := Nat.exists_eq_succ_of_ne_zero hf.ne'
  have hstep : ∃ s e, ODE.step (exactStepper.{v} flow) (fuel + 1) d x.ode x.state x.t = some (s, x.t + d, e) ∧ min 1 x.ode.dtTry ≤ e.dtTry := by
    unfold ODE.step
    rw [hft]
    simp only [ODE.tryLoop, exactStepper, if_true, Option.map_some]
    refine ⟨_, _, rfl, ?_⟩
    simp only
    by_cases hn : ODE.nextDtTry d x.ode.dtTry ≠ 0
    · rw [if_pos hn]
      unfold ODE.nextDtTry at hn ⊢
      split_ifs at hn ⊢ with h
      · exact min_le_right _ _
      · exact absurd rfl hn
    · rw [if_neg hn, if_pos hd]
      exact min_le_left _ _
  obtain ⟨s, e, h1, h2⟩ := hstep
  unfold step
  rw [h1]
  exact ⟨_, rfl, rfl, h2⟩

theorem exact_run.{v} (flow : ℝ → (Fin n → E) → ℝ → Fin n → E) (f : ℝ → (Fin n → E) → Fin n → E) (fuel : ℕ) (hf : 0 < fuel) (T Dt : ℝ) (hD : 0 < Dt) (hD1 : Dt ≤ 1) (m : ℕ) (x : St n E PUnit.{v + 1}) (hx : Dt ≤ x.ode.dtTry)
    (hm : T ≤ x.t + m * Dt) : (runTo (fun _ => exactStepper.{v} flow) f fuel 1 T Dt m x).isSome := by
  induction m generalizing x with
  | zero =>
    unfold runTo
    rw [if_neg (by push_cast at hm; linarith)]
    rfl
  | succ m ih =>
    unfold runTo
    split_ifs with h1
    · have hpos : 0 < min Dt (T - x.t) := lt_min hD (by linarith)
      have hle := min_le_left Dt (T - x.t)
      obtain ⟨y, hy, hyt, hyd⟩ := exact_step flow f fuel hf (min Dt (T - x.t)) hpos x (hle.trans hx)
      have hadv : advanceLoop (fun _ => exactStepper.{v} flow) f fuel (x.t + min Dt (T - x.t)) 1 x = some y := by
        unfold advanceLoop
        rw [if_neg (by linarith), add_sub_cancel_left, hy]
        simp only [Option.bind_some]
        unfold advanceLoop
        rw [if_pos (by rw [hyt]; ring)]
      rw [hadv, Option.bind_some]
      rcases le_total Dt (T - x.t) with h | h
      · refine ih y ((le_min hD1 hx).trans hyd) ?_
        rw [hyt, min_eq_left h]
        push_cast at hm
        linarith
      · have : ¬ y.t < T := by rw [hyt, min_eq_right h]; linarith
        cases m <;> unfold runTo <;> rw [if_neg this] <;> rfl
    · rfl

end CppQED.Simulated
