import Verif.Model.MCWFSystem
import Verif.Lemmas.MasterPicture
import Verif.Lemmas.Unravelling
import Mathlib.Analysis.Calculus.Deriv.Prod

/-! # Helper lemmas about the unravelling of the Master equation: systems in interaction picture -/

namespace CppQED.Unravel
open Matrix MCWF
open scoped ComplexConjugate

theorem tryLoop_any {σ κ : Type*} (st : ODE.Stepper σ κ) (hc : ODE.Controlled st) (fuel : ℕ) (k : κ) (s : σ) (t d : ℝ) (n : ℕ) (r : σ × ℝ × ℝ × κ × ℕ) (h : ODE.tryLoop st fuel k s t d n = some r) :
    ∃ k' d', (st k' s t d').1.success = true ∧ r.1 = (st k' s t d').1.state ∧ r.2.1 = (st k' s t d').1.time := by
  induction fuel generalizing k d n with
  | zero => exact absurd h (by simp [ODE.tryLoop])
  | succ fuel ih =>
    rw [ODE.tryLoop] at h
    by_cases hs : (st k s t d).1.success = true
    · rw [if_pos hs, Option.some.injEq] at h
      subst h
      exact ⟨k, d, hs, rfl, rfl⟩
    · rw [if_neg hs, hc.fail_state k s t d (by simpa using hs), hc.fail_time k s t d (by simpa using hs)] at h
      exact ih _ _ _ h

variable {n : ℕ}

/-- The multiplication with a matrix. -/
noncomputable def mulMap (A : Matrix (Fin n) (Fin n) ℂ) : (Fin n → ℂ) →L[ℝ] (Fin n → ℂ) := LinearMap.toContinuousLinearMap ((Matrix.mulVecLin A).restrictScalars ℝ)

theorem mulMap_apply (A : Matrix (Fin n) (Fin n) ℂ) (v : Fin n → ℂ) : mulMap A v = A *ᵥ v := rfl

theorem hasDerivAt_flow (A : Matrix (Fin n) (Fin n) ℂ) (v : Fin n → ℂ) (t s : ℝ) (i : Fin n) :
    HasDerivAt (fun r => semi (mulMap A) (r - t) v i) ((A *ᵥ semi (mulMap A) (s - t) v) i) s := by
  have h1 : HasDerivAt (fun r => semi (mulMap A) (r - t)) (mulMap A * semi (mulMap A) (s - t)) s := by
    have := (hasDerivAt_semi (mulMap A) (s - t)).scomp s ((hasDerivAt_id s).sub_const t)
    exact this.congr_deriv (by rw [one_smul])
  have h2 := h1.clm_apply (hasDerivAt_const s v)
  have h3 := hasDerivAt_pi.1 h2 i
  refine h3.congr_deriv ?_
  simp only [map_zero, add_zero]
  rfl

/-- The solution in the interaction picture which begins at `t`. -/
noncomputable def flow (W : Fin n → ℂ) (A : Matrix (Fin n) (Fin n) ℂ) (v : Fin n → ℂ) (t r : ℝ) : Fin n → ℂ := fun i => Complex.exp (W i * (r - t : ℝ)) * semi (mulMap A) (r - t) v i

theorem flow_start (W : Fin n → ℂ) (A : Matrix (Fin n) (Fin n) ℂ) (v : Fin n → ℂ) (t : ℝ) : flow W A v t t = v := by
  funext i
  simp [flow, semi_zero]

theorem hasDerivAt_exp_phase (z : ℂ) (t s : ℝ) : HasDerivAt (fun r : ℝ => Complex.exp (z * (r - t : ℝ))) (z * Complex.exp (z * (s - t : ℝ))) s := by
  have := Master.phaseFactor_hasDerivAt (-z) t s
  simpa using this

theorem flow_hasDerivAt (W : Fin n → ℂ) (V G : Matrix (Fin n) (Fin n) ℂ) (v : Fin n → ℂ) (t s : ℝ)
    (hG : (Matrix.diagonal fun i => Complex.exp (-(W i * (s - t : ℝ)))) * G = V * Matrix.diagonal fun i => Complex.exp (-(W i * (s - t : ℝ)))) (i : Fin n) :
    HasDerivAt (fun r => flow W (V - Matrix.diagonal W) v t r i) ((G *ᵥ flow W (V - Matrix.diagonal W) v t s) i) s := by
  have h := (hasDerivAt_exp_phase (W i) t s).mul (hasDerivAt_flow (V - Matrix.diagonal W) v t s i)
  refine h.congr_deriv ?_
  set u := semi (mulMap (V - Matrix.diagonal W)) (s - t) v with hu
  have hφ : (Matrix.diagonal fun i => Complex.exp (-(W i * (s - t : ℝ)))) *ᵥ flow W (V - Matrix.diagonal W) v t s = u := by
    funext k
    rw [Matrix.mulVec_diagonal]
    show Complex.exp (-(W k * (s - t : ℝ))) * (Complex.exp (W k * (s - t : ℝ)) * u k) = u k
    rw [← mul_assoc, ← Complex.exp_add, neg_add_cancel, Complex.exp_zero, one_mul]
  have h1 : ((Matrix.diagonal fun i => Complex.exp (-(W i * (s - t : ℝ)))) *ᵥ (G *ᵥ flow W (V - Matrix.diagonal W) v t s)) i = (V *ᵥ u) i := by
    rw [Matrix.mulVec_mulVec, hG, ← Matrix.mulVec_mulVec, hφ]
  rw [Matrix.mulVec_diagonal] at h1
  have h2 : (G *ᵥ flow W (V - Matrix.diagonal W) v t s) i = Complex.exp (W i * (s - t : ℝ)) * (V *ᵥ u) i := by
    rw [← h1, ← mul_assoc, ← Complex.exp_add, add_neg_cancel, Complex.exp_zero, one_mul]
  rw [h2, Matrix.sub_mulVec, Pi.sub_apply, Matrix.mulVec_diagonal]
  ring

/-- A frequency which never changes the phase is zero. -/
theorem frequency_zero (z : ℂ) (h : ∀ t t0 : ℝ, Complex.exp (-(z * (t - t0 : ℝ))) = 1) : z = 0 := by
  have h1 := Master.phaseFactor_hasDerivAt z 0 0
  have h2 : HasDerivAt (fun s : ℝ => Complex.exp (-(z * (s - 0 : ℝ)))) 0 0 := by
    simp only [h]
    exact hasDerivAt_const _ _
  have := h1.unique h2
  simpa using this

/-- The dynamics, up to second order in the step. -/
theorem flow_second (A : Matrix (Fin n) (Fin n) ℂ) : ∃ c, 0 ≤ c ∧ ∀ (v : Fin n → ℂ) (τ : ℝ), MCWF.norm v = 1 → 0 ≤ τ → τ ≤ 1 → ∀ i, ‖semi (mulMap A) τ v i - (v i + τ * (A *ᵥ v) i)‖ ≤ c * τ ^ 2 := by
  obtain ⟨K, hK, h⟩ := semi_second (mulMap A) 1
  refine ⟨K, hK, fun v τ hv h0 h1 i => ?_⟩
  have e : semi (mulMap A) τ v i - (v i + τ * (A *ᵥ v) i) = (semi (mulMap A) τ - 1 - τ • mulMap A) v i := by
    simp [mulMap_apply]
    ring
  rw [e]
  refine (norm_le_pi_norm _ i).trans (((semi (mulMap A) τ - 1 - τ • mulMap A).le_opNorm v).trans ?_)
  have hv1 : ‖v‖ ≤ 1 := (pi_norm_le_iff_of_nonneg zero_le_one).2 fun i => norm_apply_le v hv i
  calc _ ≤ K * τ ^ 2 * 1 := mul_le_mul (h τ h0 h1) hv1 (norm_nonneg _) (by positivity)
    _ = _ := mul_one _

/-- A linear system in the interaction picture of the frequencies `W`, with the rest of the Hamiltonian `V` and the jumps `J`. -/
def Pictured (S : Master.Sys n) (W : Fin n → ℂ) (V : Matrix (Fin n) (Fin n) ℂ) (nJ : ℕ) (J : ℕ → Matrix (Fin n) (Fin n) ℂ) : Prop :=
  ∃ G U : ℝ → ℝ → Matrix (Fin n) (Fin n) ℂ, Master.Linear S G U nJ (fun _ => J) ∧ (∀ t t0, U t t0 = Matrix.diagonal fun i => Complex.exp (-(W i * (t - t0 : ℝ)))) ∧ ∀ t t0, U t t0 * G t t0 = V * U t t0

/-- A decay that is the same for all the states. -/
theorem flow_decay (A : Matrix (Fin n) (Fin n) ℂ) (g : ℝ) (hg : 0 ≤ g) : ∃ c, 0 ≤ c ∧ ∀ (ψ : Fin n → ℂ) (d : ℝ), MCWF.norm ψ = 1 → 0 ≤ d → d ≤ 1 →
    ∀ i, ‖(Real.exp (-(g * d)) : ℝ) * semi (mulMap A) d ψ i - (ψ i + d * ((A - (g : ℂ) • 1) *ᵥ ψ) i)‖ ≤ c * d ^ 2 := by
  obtain ⟨c, hc, hflow⟩ := flow_second A
  refine ⟨c + g ^ 2 + g * ∑ i, ∑ j, ‖A i j‖, by positivity, fun ψ d hψ hd hd1 i => ?_⟩
  have hgd : 0 ≤ g * d := mul_nonneg hg hd
  have e0 : Real.exp (-(g * d)) ≤ 1 := Real.exp_le_one_iff.2 (by linarith)
  have e0' : 0 ≤ Real.exp (-(g * d)) := (Real.exp_pos _).le
  have e1 : 0 ≤ Real.exp (-(g * d)) - 1 + g * d := by have := Real.add_one_le_exp (-(g * d)); linarith
  have e2 : Real.exp (-(g * d)) - 1 + g * d ≤ (g * d) ^ 2 := by
    have h1 := Real.add_one_le_exp (g * d)
    have h2 : Real.exp (-(g * d)) * Real.exp (g * d) = 1 := by rw [← Real.exp_add]; simp
    nlinarith
  have e3 : 1 - Real.exp (-(g * d)) ≤ g * d := by linarith
  have hA : ‖(A *ᵥ ψ) i‖ ≤ ∑ i, ∑ j, ‖A i j‖ := by
    refine le_trans ?_ (Finset.single_le_sum (f := fun i => ∑ j, ‖A i j‖) (fun k _ => Finset.sum_nonneg fun j _ => _root_.norm_nonneg _) (Finset.mem_univ i))
    change ‖∑ j, A i j * ψ j‖ ≤ _
    refine (norm_sum_le _ _).trans (Finset.sum_le_sum fun j _ => ?_)
    rw [norm_mul]
    exact mul_le_of_le_one_right (_root_.norm_nonneg _) (norm_apply_le ψ hψ j)
  have hsm : ((A - (g : ℂ) • 1) *ᵥ ψ) i = (A *ᵥ ψ) i - g * ψ i := by
    rw [Matrix.sub_mulVec, Matrix.smul_mulVec, Matrix.one_mulVec]; rfl
  rw [hsm]
  have key : ((Real.exp (-(g * d)) : ℝ) : ℂ) * semi (mulMap A) d ψ i - (ψ i + d * ((A *ᵥ ψ) i - g * ψ i)) =
      ((Real.exp (-(g * d)) : ℝ) : ℂ) * (semi (mulMap A) d ψ i - (ψ i + d * (A *ᵥ ψ) i)) + ((Real.exp (-(g * d)) - 1 + g * d : ℝ) : ℂ) * ψ i - ((d * (1 - Real.exp (-(g * d))) : ℝ) : ℂ) * (A *ᵥ ψ) i := by
    push_cast; ring
  rw [key]
  refine (norm_sub_le _ _).trans ?_
  refine (add_le_add_left (norm_add_le _ _) _).trans ?_
  simp only [norm_mul, Complex.norm_real, Real.norm_eq_abs]
  rw [abs_of_nonneg e0', abs_of_nonneg e1, abs_of_nonneg hd, abs_of_nonneg (show 0 ≤ 1 - Real.exp (-(g * d)) by linarith)]
  have h1 := hflow ψ d hψ hd hd1 i
  have h2 := norm_apply_le ψ hψ i
  have n1 := _root_.norm_nonneg (semi (mulMap A) d ψ i - (ψ i + d * (A *ᵥ ψ) i))
  have n2 := _root_.norm_nonneg (ψ i)
  have n3 := _root_.norm_nonneg ((A *ᵥ ψ) i)
  have m1 : Real.exp (-(g * d)) * ‖semi (mulMap A) d ψ i - (ψ i + d * (A *ᵥ ψ) i)‖ ≤ c * d ^ 2 := by nlinarith
  have m2 : (Real.exp (-(g * d)) - 1 + g * d) * ‖ψ i‖ ≤ g ^ 2 * d ^ 2 := by nlinarith
  have m3 : d * (1 - Real.exp (-(g * d))) * ‖(A *ᵥ ψ) i‖ ≤ d * (g * d) * ∑ i, ∑ j, ‖A i j‖ :=
    mul_le_mul (mul_le_mul_of_nonneg_left e3 hd) hA n3 (mul_nonneg hd hgd)
  nlinarith

/-- Such a system, with an accurate stepper, follows the physics of the whole Hamiltonian, from which a uniform decay `g` may be missing. -/
theorem picture_follows.{v} (S : Master.Sys n) (W : Fin n → ℂ) (V : Matrix (Fin n) (Fin n) ℂ) (nJ : ℕ) (J : ℕ → Matrix (Fin n) (Fin n) ℂ) (hP : Pictured S W V nJ J) (hW : ∀ i, 0 ≤ (W i).re)
    (hli : S.li.isSome) (g : ℝ) (hg : 0 ≤ g) :
    ∃ c, 0 ≤ c ∧ ∀ {κ : Type v} (make : (ℝ → (Fin n → ℂ) → Fin n → ℂ) → ODE.Stepper (Fin n → ℂ) κ) (rates : ℝ → (Fin n → ℂ) → List ℝ) (ε h : ℝ), 0 ≤ ε → h ≤ 1 →
      (∀ t psi, (rates t psi).length = nJ) → (S.ha.isSome → ∀ t0, ODE.Controlled (make (S.rhs t0)) ∧ Accurate (make (S.rhs t0)) (S.rhs t0) ε) →
      Follows (S.toMCWF make rates) (V - Matrix.diagonal W - (g : ℂ) • 1) ((List.range nJ).map J) c ε h := by
  obtain ⟨G, U, lin, hU, hG⟩ := hP
  obtain ⟨c, hc, hflow⟩ := flow_decay (V - Matrix.diagonal W) g hg
  refine ⟨c, hc, ?_⟩
  intro κ make rates ε h hε hh hlen hst
  have hrhs : ∀ t0 t psi, S.rhs t0 t psi = G t t0 *ᵥ psi := by
    intro t0 t psi
    unfold Master.Sys.rhs
    cases hx : S.ha with
    | none => simp [lin.ha_none hx]
    | some f => simp [lin.ha f hx]
  constructor
  · obtain ⟨l, hl⟩ := Option.isSome_iff_exists.1 hli
    refine ⟨⟨rates, l.actWithJ⟩, by simp [Master.Sys.toMCWF, hl], fun t psi => ⟨by simp [hlen], fun i hi => ?_⟩⟩
    have hi' : i < nJ := by simpa using hi
    simpa using (lin.jumps l hl).2 i hi' t psi
  · intro fuel Dt x y hDt hx ht0 hy hpos hle
    refine ⟨Real.exp (-(g * y.dtDid)), Real.exp_pos _, fun i => ?_⟩
    set A := V - Matrix.diagonal W with hA
    -- the picture at the time of the step
    have hpic : ∀ r, (Matrix.diagonal fun i => Complex.exp (-(W i * (r - x.t : ℝ)))) * G r x.t0 = V * Matrix.diagonal fun i => Complex.exp (-(W i * (r - x.t : ℝ))) := by
      intro r
      cases hex : S.ex with
      | some f =>
        have : x.t0 = x.t := ht0 (by simp [Master.Sys.toMCWF, hex])
        rw [this, ← hU]
        exact hG r x.t
      | none =>
        have h0 : W = 0 := by
          funext k
          refine frequency_zero _ fun t t0 => ?_
          have h1 := lin.ex_none hex t t0
          rw [hU] at h1
          have := congrFun (congrFun h1 k) k
          simpa using this
        have h2 := hG r x.t0
        rw [hU, h0] at h2
        rw [h0]
        simpa using h2
    have hsol : ∀ r i, HasDerivAt (fun r => flow W A x.psi x.t r i) (S.rhs x.t0 r (flow W A x.psi x.t r) i) r := by
      intro r i
      rw [hrhs]
      exact flow_hasDerivAt W V (G r x.t0) x.psi x.t r (hpic r) i
    -- the integration
    have hint : y.t = x.t + y.dtDid ∧ y.t0 = x.t0 ∧ ‖y.psi i - flow W A x.psi x.t (x.t + y.dtDid) i‖ ≤ ε * y.dtDid := by
      unfold evolve at hy
      cases hha : S.ha with
      | some f =>
        have hha' : (S.toMCWF make rates).ha = some fun t0 => make (S.rhs t0) := by simp [Master.Sys.toMCWF, hha]
        rw [hha'] at hy
        simp only at hy
        cases hd : x.dtTry with
        | top => rw [hd] at hy; simp at hy
        | coe d =>
          rw [hd] at hy
          simp only at hy
          obtain ⟨r, hr, rfl⟩ := Option.map_eq_some_iff.1 hy
          unfold ODE.step at hr
          obtain ⟨q, hq, rfl⟩ := Option.map_eq_some_iff.1 hr
          obtain ⟨hcon, hacc⟩ := hst (by simp [hha]) x.t0
          obtain ⟨k', d', s1, s2, s3⟩ := tryLoop_any _ hcon _ _ _ _ _ _ _ hq
          rw [hcon.success_time _ _ _ _ s1] at s3
          have hd' : q.2.1 - x.t = d' := by rw [s3]; ring
          simp only at hpos ⊢
          rw [hd'] at hpos ⊢
          refine ⟨s3, trivial, ?_⟩
          rw [s2]
          exact hacc k' x.psi x.t d' hpos hx s1 (flow W A x.psi x.t) (flow_start _ _ _ _) (fun r _ _ i => hsol r i) i
      | none =>
        have hha' : (S.toMCWF make rates).ha = none := by simp [Master.Sys.toMCWF, hha]
        rw [hha'] at hy
        simp only [Option.some.injEq] at hy
        subst hy
        refine ⟨rfl, rfl, ?_⟩
        simp only
        have hconst : ∀ r, flow W A x.psi x.t r i = flow W A x.psi x.t x.t i := fun r => is_const_of_deriv_eq_zero (f := fun r => flow W A x.psi x.t r i) (fun r => (hsol r i).differentiableAt) (fun r => by
          rw [(hsol r i).deriv, hrhs, lin.ha_none hha]; simp) _ _
        rw [hconst, flow_start, sub_self, norm_zero]
        exact mul_nonneg hε hpos.le
    obtain ⟨h1, h2, h3⟩ := hint
    have hex : (exact (S.toMCWF make rates) y).psi i = Complex.exp (-(W i * y.dtDid)) * y.psi i := by
      unfold exact
      cases hxx : S.ex with
      | some f =>
        have hxx' : (S.toMCWF make rates).ex = some f := hxx
        rw [hxx']
        simp only
        have ht : x.t0 = x.t := ht0 (by rw [hxx']; rfl)
        rw [lin.ex f hxx, hU, Matrix.mulVec_diagonal, h1, h2, ht, add_sub_cancel_left]
      | none =>
        have hxx' : (S.toMCWF make rates).ex = none := hxx
        rw [hxx']
        simp only
        have h4 := lin.ex_none hxx y.dtDid 0
        rw [hU] at h4
        have := congrFun (congrFun h4 i) i
        simp only [Matrix.diagonal_apply_eq, Matrix.one_apply_eq, sub_zero] at this
        rw [this, one_mul]
    have hfl : Complex.exp (-(W i * y.dtDid)) * flow W A x.psi x.t (x.t + y.dtDid) i = semi (mulMap A) y.dtDid x.psi i := by
      unfold flow
      rw [add_sub_cancel_left, ← mul_assoc, ← Complex.exp_add, neg_add_cancel, Complex.exp_zero, one_mul]
    have hn : ‖Complex.exp (-(W i * y.dtDid))‖ ≤ 1 := by
      rw [Complex.norm_exp]
      refine Real.exp_le_one_iff.2 ?_
      simp only [Complex.neg_re, Complex.mul_re, Complex.ofReal_re, Complex.ofReal_im, mul_zero, sub_zero]
      have := mul_nonneg (hW i) hpos.le
      linarith
    have e1 : ‖(exact (S.toMCWF make rates) y).psi i - semi (mulMap A) y.dtDid x.psi i‖ ≤ ε * y.dtDid := by
      rw [hex, ← hfl, ← mul_sub, norm_mul]
      calc _ ≤ 1 * (ε * y.dtDid) := mul_le_mul hn h3 (norm_nonneg _) zero_le_one
        _ = _ := one_mul _
    have e2 := hflow x.psi y.dtDid hx hpos.le (hle.trans hh) i
    have e3 : Real.exp (-(g * y.dtDid)) ≤ 1 := Real.exp_le_one_iff.2 (by have := mul_nonneg hg hpos.le; linarith)
    have e4 : ‖((Real.exp (-(g * y.dtDid)) : ℝ) : ℂ) * ((exact (S.toMCWF make rates) y).psi i - semi (mulMap A) y.dtDid x.psi i)‖ ≤ ε * y.dtDid := by
      rw [norm_mul, Complex.norm_real, Real.norm_eq_abs, abs_of_pos (Real.exp_pos _)]
      calc _ ≤ 1 * (ε * y.dtDid) := mul_le_mul e3 e1 (_root_.norm_nonneg _) zero_le_one
        _ = _ := one_mul _
    calc _ = ‖(((Real.exp (-(g * y.dtDid)) : ℝ) : ℂ) * semi (mulMap A) y.dtDid x.psi i - (x.psi i + y.dtDid * ((A - (g : ℂ) • 1) *ᵥ x.psi) i)) +
          ((Real.exp (-(g * y.dtDid)) : ℝ) : ℂ) * ((exact (S.toMCWF make rates) y).psi i - semi (mulMap A) y.dtDid x.psi i)‖ := by congr 1; ring
      _ ≤ c * y.dtDid ^ 2 + ε * y.dtDid := (norm_add_le _ _).trans (add_le_add e2 e4)

end CppQED.Unravel
