import Verif.Lemmas.Unravelling

/-! # Trajectories always arrive if the stepper never fails, or there is no Hamiltonian part -/

namespace CppQED.Unravel
open MCWF

variable {ι κ : Type*} [Fintype ι]

/-- The steppers never fail, and always suggest a step not shorter than `Dt`. -/
def Ready (S : Sys ι κ) (Dt : ℝ) : Prop :=
  ∀ ha, S.ha = some ha → ∀ t0 k s t d, 0 < d → (ha t0 k s t d).1.success = true ∧ Dt ≤ (ha t0 k s t d).1.dtTry

/-- A step is as long as it is asked for, if this is not longer than `Dt`. -/
theorem evolve_ready (S : Sys ι κ) (hS : WellBehaved S) (l : Li ι) (hl : S.li = some l) (fuel : ℕ) (hfuel : S.ha.isSome → 0 < fuel) (d Dt : ℝ) (hr : Ready S Dt) (hd : 0 < d) (hdD : d ≤ Dt) (x : St ι κ) (hx : Inv S x)
    (hxt : (Dt : WithTop ℝ) ≤ x.dtTry) : ∃ y, evolve S fuel d x = some y ∧ y.t = x.t + d ∧ y.dtDid = d ∧ (S.ha.isSome → (Dt : WithTop ℝ) ≤ y.dtTry) := by
  cases hha : S.ha with
  | none =>
    have hmin : (min x.dtTry (d : WithTop ℝ)).untopD 0 = d := by
      rw [min_eq_right ((WithTop.coe_le_coe.2 hdD).trans hxt)]
      rfl
    refine ⟨{ x with t := x.t + d, dtDid := d }, ?_, rfl, rfl, fun h => by simp at h⟩
    unfold evolve
    rw [hha, hl]
    simp only [hmin]
  | some ha =>
    have hfin := hx.try_fin (by rw [hha]; rfl)
    unfold evolve
    rw [hha]
    simp only
    cases htr : x.dtTry with
    | top => exact absurd htr hfin
    | coe e =>
      rw [htr] at hxt
      have hDe : Dt ≤ e := WithTop.coe_le_coe.1 hxt
      simp only
      obtain ⟨f, rfl⟩ : ∃ f, fuel = f + 1 := ⟨fuel - 1, by have := hfuel (by rw [hha]; rfl); omega⟩
      have he : 0 < e := by linarith
      have hft : ODE.firstTry d e x.dtDid = d := by
        unfold ODE.firstTry
        rw [sign_pos hd, sign_pos he]
        simp only [ne_eq, not_true_eq_false, if_false, abs_of_pos hd, abs_of_pos he]
        split_ifs with h
        · rfl
        · linarith
      obtain ⟨s1, s2⟩ := hr ha hha x.t0 x.ces x.psi x.t d hd
      have hc := hS.ha_controlled ha hha x.t0
      have htm := hc.success_time x.ces x.psi x.t d s1
      unfold ODE.step
      rw [hft]
      unfold ODE.tryLoop
      simp only [s1, if_true, Option.map_some]
      refine ⟨_, rfl, htm, by simp only [htm]; ring, fun _ => ?_⟩
      simp only
      refine WithTop.coe_le_coe.2 ?_
      unfold ODE.nextDtTry
      by_cases h : |d| < |e / 10|
      · rw [if_pos h, if_pos he.ne']; exact hDe
      · rw [if_neg h, if_neg (by simp)]; exact s2

/-- A step which is short enough. -/
theorem step_ready (S : Sys ι κ) (hS : WellBehaved S) (l : Li ι) (hl : S.li = some l) (L : Lim) (hdp : 0 < L.dpLimit) (htol : 1 ≤ L.overshootTolerance) (Γ Dt : ℝ)
    (hΓ : ∀ t psi, MCWF.norm psi = 1 → total (effectiveRates l t psi) ≤ Γ) (hDt : Γ * Dt ≤ L.dpLimit) (hr : Ready S Dt) (s : ℕ → ℝ) (hs : Unit01 s) (fuel n : ℕ) (hfuel : S.ha.isSome → 0 < fuel) (d : ℝ) (hd : 0 < d) (hdD : d ≤ Dt) (x : St ι κ) (hx : Inv S x)
    (hxt : (Dt : WithTop ℝ) ≤ x.dtTry) :
    ∃ z, step S L s fuel n d x = some z ∧ Inv S z ∧ (Dt : WithTop ℝ) ≤ z.dtTry ∧ z.t = x.t + d := by
  have hx0 := ne_zero_of_norm _ hx.norm_one
  obtain ⟨y, hy, hyt, hyd, hyr⟩ : ∃ y, coherent S fuel d x = some y ∧ y.t = x.t + d ∧ y.dtDid = d ∧ (S.ha.isSome → (Dt : WithTop ℝ) ≤ y.dtTry) := by
    obtain ⟨y, hy, h1, h2, h3⟩ := evolve_ready S hS l hl fuel hfuel d Dt hr hd hdD x hx hxt
    unfold coherent
    rw [hy]
    refine ⟨_, rfl, ?_, ?_, ?_⟩
    · rw [← h1]; unfold MCWF.exact; cases S.ex <;> rfl
    · rw [← h2]; unfold MCWF.exact; cases S.ex <;> rfl
    · intro h; refine (h3 h).trans (le_of_eq ?_); unfold MCWF.exact; cases S.ex <;> rfl
  have hspec := coherent_spec S hS fuel d hd x y hx0 hx.try_pos hx.try_fin hy
  have htot := hΓ y.t y.psi hspec.norm_one
  have h0 := total_nonneg l y.t y.psi
  have hΓD : total (effectiveRates l y.t y.psi) * Dt ≤ L.dpLimit := (mul_le_mul_of_nonneg_right htot (hd.le.trans hdD)).trans hDt
  have hover : ¬ overshot L (effectiveRates l y.t y.psi) y.dtDid := by
    unfold overshot
    rw [hyd, not_lt]
    calc _ ≤ total (effectiveRates l y.t y.psi) * Dt := mul_le_mul_of_nonneg_left hdD h0
      _ ≤ L.dpLimit := hΓD
      _ ≤ _ := le_mul_of_one_le_left hdp.le htol
  have hret : retryLoop S l L fuel d x n y = some (adjustTry S L (effectiveRates l y.t y.psi) y) := by
    unfold retryLoop
    simp only [if_neg hover]
  have hstep : step S L s fuel n d x = some (performJump l s (adjustTry S L (effectiveRates l y.t y.psi) y)) := by
    unfold step
    rw [hy, hl, Option.bind_some]
    simp only [hret, Option.map_some]
  refine ⟨_, hstep, step_inv S hS L hdp htol s (fun k => (hs k).1) fuel n d hd x _ hx hstep, ?_, ?_⟩
  · have h1 : (performJump l s (adjustTry S L (effectiveRates l y.t y.psi) y)).dtTry = (adjustTry S L (effectiveRates l y.t y.psi) y).dtTry := by
      unfold performJump
      simp only
      split <;> rfl
    have h2 : (Dt : WithTop ℝ) ≤ suggested L (effectiveRates l y.t y.psi) := by
      unfold suggested
      split_ifs with h2
      · exact le_top
      · refine WithTop.coe_le_coe.2 ?_
        rw [le_div_iff₀ (lt_of_le_of_ne h0 (Ne.symm h2)), mul_comm]
        exact hΓD
    rw [h1]
    unfold adjustTry
    cases hha : S.ha with
    | none => exact h2
    | some ha => exact le_min (hyr (by rw [hha]; rfl)) h2
  · rw [← hyt]
    unfold performJump
    simp only
    split <;> rfl

/-- The run. -/
theorem runTo_ready (S : Sys ι κ) (hS : WellBehaved S) (l : Li ι) (hl : S.li = some l) (L : Lim) (hdp : 0 < L.dpLimit) (htol : 1 ≤ L.overshootTolerance) (Γ Dt T : ℝ)
    (hΓ : ∀ t psi, MCWF.norm psi = 1 → total (effectiveRates l t psi) ≤ Γ) (hDt0 : 0 < Dt) (hDt : Γ * Dt ≤ L.dpLimit) (hr : Ready S Dt) (s : ℕ → ℝ) (hs : Unit01 s) (fuel n : ℕ) (hfuel : S.ha.isSome → 0 < fuel) (m : ℕ) (x : St ι κ) (hx : Inv S x)
    (hxt : (Dt : WithTop ℝ) ≤ x.dtTry) (hm : T ≤ x.t + m * Dt) : (runTo S L s fuel n 1 T Dt m x).isSome := by
  induction m generalizing x with
  | zero =>
    unfold runTo
    rw [if_neg (not_lt.2 (by simpa using hm))]
    rfl
  | succ m ih =>
    unfold runTo
    split_ifs with h
    · have hd : 0 < min Dt (T - x.t) := lt_min hDt0 (by linarith)
      obtain ⟨z, z1, z2, z3, z4⟩ := step_ready S hS l hl L hdp htol Γ Dt hΓ hDt hr s hs fuel n hfuel (min Dt (T - x.t)) hd (min_le_left _ _) x hx hxt
      have hadv : advanceLoop S L s fuel n (x.t + min Dt (T - x.t)) 1 x = some z := by
        unfold advanceLoop
        rw [add_sub_cancel_left, if_neg hd.ne', z1, Option.bind_some]
        unfold advanceLoop
        rw [z4, sub_self, if_pos rfl]
      rw [hadv, Option.bind_some]
      rcases le_total Dt (T - x.t) with h1 | h1
      · refine ih z z2 z3 ?_
        rw [z4, min_eq_left h1]
        push_cast at hm
        linarith
      · refine ih z z2 z3 ?_
        rw [z4, min_eq_right h1]
        have : (0 : ℝ) ≤ m * Dt := by positivity
        linarith
    · rfl

/-- From the beginning. -/
theorem construct_ready (S : Sys ι κ) (l : Li ι) (hl : S.li = some l) (L : Lim) (hdp : 0 < L.dpLimit) (htol : 1 ≤ L.overshootTolerance) (Γ Dt : ℝ)
    (hΓ : ∀ t psi, MCWF.norm psi = 1 → total (effectiveRates l t psi) ≤ Γ) (hDt0 : 0 < Dt) (hDt : Γ * Dt ≤ L.dpLimit) (psi : ι → ℂ) (hpsi : MCWF.norm psi = 1) (ces : κ) (dtInit : ℝ) (hdt : S.ha.isSome → Dt ≤ dtInit) :
    (Dt : WithTop ℝ) ≤ (construct S L psi ces dtInit).dtTry := by
  have h0 := total_nonneg l 0 psi
  have hover : ¬ overshot L (effectiveRates l 0 psi) 0 := by
    unfold overshot
    rw [mul_zero, not_lt]
    positivity
  unfold construct
  rw [hl]
  simp only
  rw [if_neg hover]
  have h1 : (Dt : WithTop ℝ) ≤ suggested L (effectiveRates l 0 psi) := by
    unfold suggested
    split_ifs with h2
    · exact le_top
    · refine WithTop.coe_le_coe.2 ?_
      rw [le_div_iff₀ (lt_of_le_of_ne h0 (Ne.symm h2)), mul_comm]
      exact (mul_le_mul_of_nonneg_right (hΓ 0 psi hpsi) hDt0.le).trans hDt
  unfold adjustTry
  cases hha : S.ha with
  | none => exact h1
  | some ha => exact le_min (WithTop.coe_le_coe.2 (hdt (by rw [hha]; rfl))) h1

end CppQED.Unravel
