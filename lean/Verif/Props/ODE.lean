import Verif.Model.ODE
import Mathlib.Data.Sign.Basic
import Mathlib.Tactic.Linarith
import Mathlib.Tactic.NormNum
import Mathlib.Tactic.Positivity
import Mathlib.Tactic.Ring

/-! # Properties C39 (adaptive step) and C62 (tolerances) -/

namespace CppQED.ODE

variable {σ κ : Type*}

/-- What is assumed about a controlled stepper, for trial steps in both directions: a failure leaves the state and the time, and reduces the trial step in
magnitude; a success advances the time by the trial step, and suggests a next one in the same direction. -/
structure Controlled (stepper : Stepper σ κ) : Prop where
  fail_time : ∀ k s t d, (stepper k s t d).1.success = false → (stepper k s t d).1.time = t
  fail_state : ∀ k s t d, (stepper k s t d).1.success = false → (stepper k s t d).1.state = s
  fail_try : ∀ k s t d, 0 < d → (stepper k s t d).1.success = false → 0 < (stepper k s t d).1.dtTry ∧ (stepper k s t d).1.dtTry < d
  fail_try_neg : ∀ k s t d, d < 0 → (stepper k s t d).1.success = false → d < (stepper k s t d).1.dtTry ∧ (stepper k s t d).1.dtTry < 0
  success_time : ∀ k s t d, (stepper k s t d).1.success = true → (stepper k s t d).1.time = t + d
  success_try : ∀ k s t d, 0 < d → (stepper k s t d).1.success = true → 0 < (stepper k s t d).1.dtTry
  success_try_neg : ∀ k s t d, d < 0 → (stepper k s t d).1.success = true → (stepper k s t d).1.dtTry < 0

theorem tryLoop_pos (stepper : Stepper σ κ) (hc : Controlled stepper) (fuel : ℕ) (k : κ) (s : σ) (t d : ℝ) (hd : 0 < d) (n : ℕ)
    (r : σ × ℝ × ℝ × κ × ℕ) (h : tryLoop stepper fuel k s t d n = some r) :
    t < r.2.1 ∧ r.2.1 ≤ t + d ∧ 0 < r.2.2.1 ∧ n ≤ r.2.2.2.2 ∧ (r.2.2.2.2 = n → r.2.1 = t + d) ∧
    ∃ k' d', 0 < d' ∧ d' ≤ d ∧ (stepper k' s t d').1.success = true ∧ r.1 = (stepper k' s t d').1.state ∧ r.2.1 = t + d' ∧
      r.2.2.1 = (stepper k' s t d').1.dtTry := by
  induction fuel generalizing k d n with
  | zero => exact absurd h (by simp [tryLoop])
  | succ fuel ih =>
    rw [tryLoop] at h
    by_cases hs : (stepper k s t d).1.success = true
    · simp only [hs, if_true, Option.some.injEq] at h
      subst h
      have ht := hc.success_time k s t d hs
      refine ⟨?_, ht.le, hc.success_try k s t d hd hs, le_rfl, fun _ => ht, k, d, hd, le_rfl, hs, rfl, ht, rfl⟩
      show t < (stepper k s t d).1.time
      rw [ht]; linarith
    · have hs' : (stepper k s t d).1.success = false := by simpa using hs
      simp only [hs', Bool.false_eq_true, if_false] at h
      rw [hc.fail_time k s t d hs', hc.fail_state k s t d hs'] at h
      obtain ⟨h1, h2⟩ := hc.fail_try k s t d hd hs'
      obtain ⟨a1, a2, a3, a4, a5, k', d', b1, b2, b3⟩ := ih _ _ h1 _ h
      refine ⟨a1, by linarith, a3, by omega, fun hh => by omega, k', d', b1, by linarith, b3⟩

/-- **C39.** A step forward with any history of rejected trials: time moves by `dtDid`, which is positive and not greater than the requested interval,
nor than the previous `dtTry`; the state is the result of a single successful trial step from the original state with this step size; the next `dtTry` is
positive, and it is unchanged if the requested interval is less than a tenth of it; otherwise, it is the suggestion of the stepper. -/
theorem step_forward (stepper : Stepper σ κ) (hc : Controlled stepper) (fuel : ℕ) (deltaT : ℝ) (hdt : 0 < deltaT) (e : Engine κ) (htry : 0 < e.dtTry)
    (s : σ) (t : ℝ) (s' : σ) (t' : ℝ) (e' : Engine κ) (h : step stepper fuel deltaT e s t = some (s', t', e')) :
    t' = t + e'.dtDid ∧ 0 < e'.dtDid ∧ e'.dtDid ≤ deltaT ∧ e'.dtDid ≤ e.dtTry ∧ 0 < e'.dtTry ∧
    (deltaT < e.dtTry / 10 → e'.dtTry = e.dtTry) ∧
    (∃ k', (stepper k' s t e'.dtDid).1.success = true ∧ s' = (stepper k' s t e'.dtDid).1.state ∧
      (e.dtTry / 10 ≤ deltaT → e'.dtTry = (stepper k' s t e'.dtDid).1.dtTry)) ∧
    e'.nSteps = e.nSteps + 1 ∧ e.nFailedSteps ≤ e'.nFailedSteps ∧
    (e'.nFailedSteps = e.nFailedSteps → e'.dtDid = min e.dtTry deltaT) := by
  have hft : firstTry deltaT e.dtTry e.dtDid = min e.dtTry deltaT := by
    unfold firstTry
    rw [sign_pos hdt, sign_pos htry]
    simp only [ne_eq, not_true_eq_false, if_false, abs_of_pos hdt, abs_of_pos htry]
    rcases le_or_gt e.dtTry deltaT with h | h
    · rw [if_neg (not_lt.2 h), min_eq_left h]
    · rw [if_pos h, min_eq_right h.le]
  have hpos : 0 < min e.dtTry deltaT := lt_min htry hdt
  unfold step at h
  rw [hft] at h
  obtain ⟨r, hr, hr'⟩ := Option.map_eq_some_iff.1 h
  obtain ⟨h1, h2, h3, h4, h5, k', d', b1, b2, b3, b4, b5, b6⟩ := tryLoop_pos stepper hc fuel _ s t _ hpos 0 r hr
  simp only [Prod.mk.injEq] at hr'
  obtain ⟨rfl, rfl, rfl⟩ := hr'
  have hd' : r.2.1 - t = d' := by rw [b5]; ring
  have hnext : nextDtTry deltaT e.dtTry = if deltaT < e.dtTry / 10 then e.dtTry else 0 := by
    unfold nextDtTry
    rw [abs_of_pos hdt, abs_of_pos (by positivity : 0 < e.dtTry / 10)]
  have hm1 := min_le_left e.dtTry deltaT
  have hm2 := min_le_right e.dtTry deltaT
  refine ⟨by simp, by simp only; linarith, by simp only; linarith, by simp only; linarith, ?_, ?_, ⟨k', ?_, ?_, ?_⟩, rfl, by simp, ?_⟩
  · simp only [hnext]
    by_cases hh : deltaT < e.dtTry / 10
    · rw [if_pos hh, if_pos htry.ne']; exact htry
    · rw [if_neg hh, if_neg (by simp)]; exact h3
  · intro hh
    simp only [hnext, if_pos hh]
    rw [if_pos htry.ne']
  · simp only [hd']; exact b3
  · simp only [hd']; exact b4
  · intro hh
    simp only [hnext, if_neg (not_lt.2 hh), hd']
    simpa using b6
  · intro hh
    simp only at hh ⊢
    rw [h5 (by omega)]; ring

/-- **C39.** The loop of trials ends: if trial steps smaller than some `h` never fail, and a failure reduces the trial step at least by a factor `q<1`, then
it ends after finitely many trials. -/
theorem trials_terminate (stepper : Stepper σ κ) (hc : Controlled stepper) (h : ℝ) (h0 : 0 < h)
    (hsmall : ∀ k s t d, 0 < d → d < h → (stepper k s t d).1.success = true)
    (q : ℝ) (hq : ∀ k s t d, 0 < d → (stepper k s t d).1.success = false → (stepper k s t d).1.dtTry ≤ q * d) (hq1 : q < 1)
    (k : κ) (s : σ) (t d : ℝ) (hd : 0 < d) (n fuel : ℕ) (hf : d < h + (fuel : ℝ) * ((1 - q) * h)) :
    ∃ r, tryLoop stepper (fuel + 1) k s t d n = some r := by
  have hqh : 0 < (1 - q) * h := mul_pos (by linarith) h0
  induction fuel generalizing k d n with
  | zero =>
    rw [tryLoop]
    have hs := hsmall k s t d hd (by simpa using hf)
    simp only [hs, if_true]; exact ⟨_, rfl⟩
  | succ fuel ih =>
    rw [tryLoop]
    by_cases hs : (stepper k s t d).1.success = true
    · simp only [hs, if_true]; exact ⟨_, rfl⟩
    · have hs' : (stepper k s t d).1.success = false := by simpa using hs
      simp only [hs', Bool.false_eq_true, if_false]
      rw [hc.fail_time k s t d hs', hc.fail_state k s t d hs']
      have h1 := hc.fail_try k s t d hd hs'
      have h2 := hq k s t d hd hs'
      have hh : h ≤ d := by
        by_contra hlt
        exact hs (hsmall k s t d hd (not_le.1 hlt))
      have h3 : (1 - q) * h ≤ (1 - q) * d := mul_le_mul_of_nonneg_left hh (by linarith)
      push_cast at hf
      refine ih _ _ h1.1 _ ?_
      nlinarith

/-- The GSL stepper satisfies the assumptions if its step control suggests steps of the same direction. -/
theorem gsl_controlled (apply : σ → ℝ → ℝ → Option σ) (hadjust : σ → ℝ → ℝ) (hp : ∀ s d, 0 < d → 0 < hadjust s d) (hn : ∀ s d, d < 0 → hadjust s d < 0) :
    Controlled (gslTryStep apply hadjust) where
  fail_time _ s t d h := by
    unfold gslTryStep at h ⊢
    cases hh : apply s t d with
    | none => simp
    | some s' => simp [hh] at h
  fail_state _ s t d h := by
    unfold gslTryStep at h ⊢
    cases hh : apply s t d with
    | none => simp
    | some s' => simp [hh] at h
  fail_try _ s t d hd h := by
    unfold gslTryStep at h ⊢
    cases hh : apply s t d with
    | none => simp only; constructor <;> linarith
    | some s' => simp [hh] at h
  fail_try_neg _ s t d hd h := by
    unfold gslTryStep at h ⊢
    cases hh : apply s t d with
    | none => simp only; constructor <;> linarith
    | some s' => simp [hh] at h
  success_time _ s t d h := by
    unfold gslTryStep at h ⊢
    cases hh : apply s t d with
    | none => simp [hh] at h
    | some s' => simp
  success_try _ s t d hd h := by
    unfold gslTryStep at h ⊢
    cases hh : apply s t d with
    | none => simp [hh] at h
    | some s' => exact hp _ _ hd
  success_try_neg _ s t d hd h := by
    unfold gslTryStep at h ⊢
    cases hh : apply s t d with
    | none => simp [hh] at h
    | some s' => exact hn _ _ hd

/-- A stepper for `y' = 1` failing for steps greater than 1. -/
noncomputable def exampleStepper : Stepper ℝ Unit := gslTryStep (fun y _ d => open Classical in if |d| ≤ 1 then some (y + d) else none) (fun _ d => d)

theorem exampleStepper_controlled : Controlled exampleStepper := gsl_controlled _ _ (fun _ _ h => h) (fun _ _ h => h)

/-- One step of this stepper with an allowance of 5 and a first trial step of 3: two rejections, then a step of 3/4. -/
example : ∃ s' t' e', step exampleStepper 3 5 ⟨(), 0, 3, 0, 0⟩ (2 : ℝ) 1 = some (s', t', e') ∧ t' = 1 + 3 / 4 ∧ e'.dtDid = 3 / 4 := by
  have hft : firstTry 5 3 0 = 3 := by
    unfold firstTry
    rw [sign_pos (by norm_num : (0 : ℝ) < 5), sign_pos (by norm_num : (0 : ℝ) < 3)]
    norm_num
  have h : tryLoop exampleStepper 3 () (2 : ℝ) 1 3 0 = some (2 + 3 * (1 / 2) * (1 / 2), 1 + 3 * (1 / 2) * (1 / 2), 3 * (1 / 2) * (1 / 2), (), 2) := by
    have e1 : exampleStepper () (2 : ℝ) 1 3 = (⟨false, 2, 1, 3 * (1 / 2)⟩, ()) := by
      unfold exampleStepper gslTryStep; simp only; rw [if_neg (by norm_num)]
    have e2 : exampleStepper () (2 : ℝ) 1 (3 * (1 / 2)) = (⟨false, 2, 1, 3 * (1 / 2) * (1 / 2)⟩, ()) := by
      unfold exampleStepper gslTryStep; simp only; rw [if_neg (by rw [abs_of_pos (by norm_num)]; norm_num)]
    have e3 : exampleStepper () (2 : ℝ) 1 (3 * (1 / 2) * (1 / 2)) = (⟨true, 2 + 3 * (1 / 2) * (1 / 2), 1 + 3 * (1 / 2) * (1 / 2), 3 * (1 / 2) * (1 / 2)⟩, ()) := by
      unfold exampleStepper gslTryStep; simp only; rw [if_pos (by rw [abs_of_pos (by norm_num)]; norm_num)]
    simp only [tryLoop, e1, e2, e3]
    norm_num
  unfold step
  simp only [hft, h, Option.map_some]
  exact ⟨_, _, _, rfl, by norm_num, by norm_num⟩

theorem tryLoop_neg (stepper : Stepper σ κ) (hc : Controlled stepper) (fuel : ℕ) (k : κ) (s : σ) (t d : ℝ) (hd : d < 0) (n : ℕ)
    (r : σ × ℝ × ℝ × κ × ℕ) (h : tryLoop stepper fuel k s t d n = some r) : r.2.1 < t ∧ t + d ≤ r.2.1 ∧ r.2.2.1 < 0 := by
  induction fuel generalizing k d n with
  | zero => exact absurd h (by simp [tryLoop])
  | succ fuel ih =>
    rw [tryLoop] at h
    by_cases hs : (stepper k s t d).1.success = true
    · simp only [hs, if_true, Option.some.injEq] at h
      subst h
      have ht := hc.success_time k s t d hs
      refine ⟨?_, ht.ge, hc.success_try_neg k s t d hd hs⟩
      show (stepper k s t d).1.time < t
      rw [ht]; linarith
    · have hs' : (stepper k s t d).1.success = false := by simpa using hs
      simp only [hs', Bool.false_eq_true, if_false] at h
      rw [hc.fail_time k s t d hs', hc.fail_state k s t d hs'] at h
      obtain ⟨h1, h2⟩ := hc.fail_try_neg k s t d hd hs'
      obtain ⟨a1, a2, a3⟩ := ih _ _ h2 _ h
      exact ⟨a1, by linarith, a3⟩

/-- **C39**, stepping backward: if a step has already been made forward, a backward step moves the time by a negative `dtDid` not exceeding the
requested interval nor the previous `dtDid` in magnitude. -/
theorem step_backward (stepper : Stepper σ κ) (hc : Controlled stepper) (fuel : ℕ) (deltaT : ℝ) (hdt : deltaT < 0) (e : Engine κ) (htry : 0 < e.dtTry)
    (hdid : 0 < e.dtDid) (s : σ) (t : ℝ) (s' : σ) (t' : ℝ) (e' : Engine κ) (h : step stepper fuel deltaT e s t = some (s', t', e')) :
    t' = t + e'.dtDid ∧ e'.dtDid < 0 ∧ deltaT ≤ e'.dtDid ∧ -e.dtDid ≤ e'.dtDid := by
  have hft : firstTry deltaT e.dtTry e.dtDid = max (-e.dtDid) deltaT := by
    unfold firstTry
    rw [sign_neg hdt, sign_pos htry]
    simp only [eq_true (by decide : (-1 : SignType) ≠ 1), if_true, abs_neg, abs_of_neg hdt, abs_of_pos hdid]
    rcases le_or_gt e.dtDid (-deltaT) with h | h
    · rw [if_neg (not_lt.2 h), max_eq_left (by linarith)]
    · rw [if_pos h, max_eq_right (by linarith)]
  have hneg : max (-e.dtDid) deltaT < 0 := max_lt (by linarith) hdt
  unfold step at h
  rw [hft] at h
  obtain ⟨r, hr, hr'⟩ := Option.map_eq_some_iff.1 h
  obtain ⟨h1, h2, h3⟩ := tryLoop_neg stepper hc fuel _ s t _ hneg 0 r hr
  simp only [Prod.mk.injEq] at hr'
  obtain ⟨rfl, rfl, rfl⟩ := hr'
  have hm1 := le_max_left (-e.dtDid) deltaT
  have hm2 := le_max_right (-e.dtDid) deltaT
  exact ⟨by simp, by simp only; linarith, by simp only; linarith, by simp only; linarith⟩

/-- **C39**, a limit: a backward step as the very first one (`dtDid=0`) makes a trial with a step of 0, so that time does not move. (`advance` does not
terminate in this case.) -/
theorem backward_first_step_stalls (stepper : Stepper σ κ) (hc : Controlled stepper) (fuel : ℕ) (deltaT : ℝ) (hdt : deltaT < 0) (e : Engine κ)
    (htry : 0 < e.dtTry) (hdid : e.dtDid = 0) (s : σ) (t : ℝ) (hs : (stepper e.ces s t 0).1.success = true) :
    ∃ s' e', step stepper (fuel + 1) deltaT e s t = some (s', t, e') ∧ e'.dtDid = 0 := by
  have hft : firstTry deltaT e.dtTry e.dtDid = 0 := by
    unfold firstTry
    rw [sign_neg hdt, sign_pos htry, hdid]
    simp only [eq_true (by decide : (-1 : SignType) ≠ 1), if_true, neg_zero, abs_zero]
    rw [if_neg (not_lt.2 (abs_nonneg _))]
  have ht := hc.success_time e.ces s t 0 hs
  unfold step
  rw [hft, tryLoop]
  simp only [hs, if_true, Option.map_some, ht, add_zero, sub_self]
  exact ⟨_, _, rfl, rfl⟩

/-! ## C62 -/

/-- **C62**, the violated part: the tolerance passed as relative is used as absolute and vice versa. -/
theorem tolerances_swapped (epsRel epsAbs : ℝ) : (makeStepper epsRel epsAbs).absolute = epsRel ∧ (makeStepper epsRel epsAbs).relative = epsAbs := ⟨rfl, rfl⟩

theorem tolerances_wrong : ∃ epsRel epsAbs : ℝ, (makeStepper epsRel epsAbs).relative ≠ epsRel := ⟨1 / 1000, 1 / 1000000, by
  show (1 : ℝ) / 1000000 ≠ 1 / 1000; norm_num⟩

/-- **C62**, the part that holds: they are used correctly if and only if they are equal. -/
theorem tolerances_partial (epsRel epsAbs : ℝ) : makeStepper epsRel epsAbs = ⟨epsAbs, epsRel⟩ ↔ epsRel = epsAbs := by
  unfold makeStepper stepperCtor
  constructor
  · intro h; exact (Tolerances.mk.inj h).1
  · intro h; rw [h]

end CppQED.ODE
