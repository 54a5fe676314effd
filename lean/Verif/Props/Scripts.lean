import Verif.Spec.Scripts
import Verif.Props.Simulated
import Verif.Props.MasterGlobal
import Verif.Props.Evolved
import Verif.Props.DDHO

/-!
# The scripts integrating amplitudes agree with the simulations of the quantum systems: C121
-/

namespace CppQED.Evolved
open CppQED.Elem CppQED.Spec CppQED.ModeEl CppQED.MultiEl CppQED.Unravel Matrix
open ComplexConjugate

/-- There are trajectories which arrive. -/
theorem _root_.CppQED.Simulated.Integrates.arrives.{v} {n : ℕ} {E : Type} [NormedAddCommGroup E] [NormedSpace ℝ E] {f : ℝ → (Fin n → E) → Fin n → E} (h : Simulated.Integrates.{v} f) (T : ℝ) (y0 : Fin n → E) :
    ∃ (κ : Type v) (x : Simulated.St n E κ), Simulated.Arrives f 0 T y0 x := by
  obtain ⟨κ, solver, ⟨ces⟩, hg, hr⟩ := h.attained
  have := hr 1 T one_pos le_rfl y0 [] (Nat.zero_le _) ces 1 le_rfl 1 ⌈T⌉₊ one_pos (by rw [mul_one]; exact Nat.le_ceil T)
  obtain ⟨x, hx⟩ := Option.isSome_iff_exists.1 this
  exact ⟨κ, x, solver, 1, [], ces, 1, 1, 1, ⌈T⌉₊, hg, one_pos, one_pos, hx⟩

theorem _root_.CppQED.Master.TracksMaster.arrives.{v} {n : ℕ} {S : Master.Sys n} {A : Matrix (Fin n) (Fin n) ℂ} {J : List (Matrix (Fin n) (Fin n) ℂ)} (h : Master.TracksMaster.{v} S A J) (T : ℝ)
    (rho : Matrix (Fin n) (Fin n) ℂ) : ∃ (κ : Type v) (x : Master.St n κ), Master.Arrives S 0 T rho x := by
  obtain ⟨κ, solver, ⟨ces⟩, hg, hr⟩ := h.attained
  have := hr 1 T one_pos le_rfl rho ces 1 le_rfl 1 ⌈T⌉₊ one_pos (by rw [mul_one]; exact Nat.le_ceil T)
  obtain ⟨x, hx⟩ := Option.isSome_iff_exists.1 this
  exact ⟨κ, x, solver, 1, ces, 1, 1, 1, ⌈T⌉₊, hg, one_pos, le_rfl, one_pos, hx⟩

/-! ## The driven damped oscillator -/

/-- **C121.** The trajectories of the example script integrate the equation of the driven damped oscillator. -/
theorem oscillator_integrates.{v} (ω γ : ℝ) : Simulated.Integrates.{v} (oscillatorDerivs ω γ) := by
  let A : (Fin 2 → ℂ) →ₗ[ℝ] (Fin 2 → ℂ) :=
    { toFun := fun y => ![y 1, -2 * γ * y 1 - y 0]
      map_add' := fun a b => by funext i; fin_cases i <;> simp <;> ring
      map_smul' := fun c b => by funext i; fin_cases i <;> simp; ring }
  refine Simulated.affine_integrates A.toContinuousLinearMap (fun t => ![0, Complex.exp (Complex.I * ω * t)]) ?_ _ fun t y => ?_
  · refine continuous_pi fun i => ?_
    fin_cases i
    · exact continuous_const
    · show Continuous fun t : ℝ => Complex.exp (Complex.I * ω * t)
      fun_prop
  · funext i
    fin_cases i
    · simp [A, oscillatorDerivs]
    · simp [A, oscillatorDerivs]; ring

/-- **C121.** The trajectory of the example script is the reference solution `ddho` of the library up to the error of the stepper, wherever this solution is defined. -/
theorem oscillator_agrees.{v} (ω γ : ℝ) (h : ¬ (γ = 0 ∧ (ω = 1 ∨ ω = -1))) (hγ : γ ≠ -1) (p q : ℂ) (T : ℝ) (hT : 0 ≤ T) : ∃ C, 0 ≤ C ∧
    ∀ {κ : Type v} (ε : ℝ), 0 ≤ ε → ε ≤ 1 → ∀ x : Simulated.St 2 ℂ κ, Simulated.Arrives (oscillatorDerivs ω γ) ε T ![p, q] x →
      x.t = T ∧ ‖x.state 0 - (DDHO.make γ ω p q 0).amp T‖ ≤ C * ε ∧ ‖x.state 1 - (DDHO.make γ ω p q 0).ampDeriv T‖ ≤ C * ε := by
  obtain ⟨a1, a2, a3, a4⟩ := DDHO.make_solves h hγ p q 0
  let y : ℝ → Fin 2 → ℂ := fun t => ![(DDHO.make γ ω p q 0).amp t, (DDHO.make γ ω p q 0).ampDeriv t]
  have hy : Simulated.Solves (oscillatorDerivs ω γ) T y := by
    intro t _ _
    rw [hasDerivAt_pi]
    intro i
    fin_cases i
    · exact a3 t
    · exact a4 t
  have hy0 : y 0 = ![p, q] := by
    simp only [y, a1, a2]
  obtain ⟨C, hC, hrun⟩ := (oscillator_integrates.{v} ω γ).error T hT y hy
  refine ⟨C, hC, ?_⟩
  rintro κ ε h0 h1 x ⟨solver, Dt, labels, ces, dtInit, fuel, N, m, hs, hDt, hdt, hx⟩
  rw [← hy0] at hx
  obtain ⟨r1, r2⟩ := hrun solver ε Dt hs h0 h1 hDt labels ces dtInit hdt fuel N m x hx
  exact ⟨r1, (norm_le_pi_norm (x.state - y T) 0).trans r2, (norm_le_pi_norm (x.state - y T) 1).trans r2⟩

/-! ## The pumped two-level atom -/

/-- The density operator of a pure state. -/
noncomputable def pure (d : ℕ) (psi : ℕ → ℂ) : Matrix (Fin d) (Fin d) ℂ := vecMulVec (ket d psi) (star (ket d psi))

/-- A sum of solutions damped alike, and a perturbation: the deviation is at most the initial one, damped, plus the perturbation accumulated. -/
theorem deviation (z : ℂ) (hz : z.re ≤ 0) (T ε : ℝ) (hT : 0 ≤ T) (u E : ℝ → ℂ) (hu : ∀ t, 0 ≤ t → t ≤ T → HasDerivAt u (z * u t + E t) t) (hE : ∀ t, 0 ≤ t → t ≤ T → ‖E t‖ ≤ ε) :
    ‖u T‖ ≤ Real.exp (z.re * T) * ‖u 0‖ + ε * T := by
  set v : ℝ → ℂ := fun s => Complex.exp (-z * (s : ℝ)) * u s with hv
  have hexp : ∀ t : ℝ, HasDerivAt (fun s : ℝ => Complex.exp (-z * (s : ℝ))) (-z * Complex.exp (-z * (t : ℝ))) t := by
    intro t
    have h1 : HasDerivAt (fun s : ℝ => -z * ((s : ℝ) : ℂ)) (-z) t := by
      have := ((hasDerivAt_id t).ofReal_comp).const_mul (-z)
      simpa using this
    exact (h1.cexp).congr_deriv (by ring)
  have hv' : ∀ t, 0 ≤ t → t ≤ T → HasDerivAt v (Complex.exp (-z * (t : ℝ)) * E t) t := fun t h0 h1 => ((hexp t).mul (hu t h0 h1)).congr_deriv (by ring)
  have hnorm : ∀ t : ℝ, ‖Complex.exp (-z * (t : ℝ))‖ = Real.exp (-z.re * t) := by
    intro t
    rw [Complex.norm_exp]; congr 1; simp
  have hε0 : 0 ≤ ε := (_root_.norm_nonneg _).trans (hE 0 le_rfl hT)
  have hle : ‖v T - v 0‖ ≤ (Real.exp (-z.re * T) * ε) * (T - 0) := by
    refine norm_image_sub_le_of_norm_deriv_le_segment' (f' := fun t => Complex.exp (-z * (t : ℝ)) * E t) (fun t ht => (hv' t ht.1 ht.2).hasDerivWithinAt) (fun t ht => ?_) T ⟨hT, le_rfl⟩
    rw [norm_mul, hnorm]
    exact mul_le_mul (Real.exp_le_exp.2 (mul_le_mul_of_nonneg_left ht.2.le (by linarith))) (hE t ht.1 ht.2.le) (_root_.norm_nonneg _) (Real.exp_nonneg _)
  have hv0 : v 0 = u 0 := by simp [hv]
  have hvT : ‖v T‖ = Real.exp (-z.re * T) * ‖u T‖ := by rw [hv]; dsimp only; rw [norm_mul, hnorm]
  have h2 : ‖v T‖ ≤ ‖u 0‖ + Real.exp (-z.re * T) * ε * T := by
    rw [← hv0]
    calc ‖v T‖ = ‖v 0 + (v T - v 0)‖ := by congr 1; ring
      _ ≤ _ := (norm_add_le _ _).trans (by linarith)
  rw [hvT] at h2
  have hpos := Real.exp_pos (z.re * T)
  have hinv : Real.exp (z.re * T) * Real.exp (-z.re * T) = 1 := by rw [← Real.exp_add]; simp
  have := mul_le_mul_of_nonneg_left h2 hpos.le
  calc ‖u T‖ = Real.exp (z.re * T) * (Real.exp (-z.re * T) * ‖u T‖) := by rw [← mul_assoc, hinv, one_mul]
    _ ≤ _ := this
    _ = Real.exp (z.re * T) * ‖u 0‖ + (Real.exp (z.re * T) * Real.exp (-z.re * T)) * ε * T := by ring
    _ = _ := by rw [hinv, one_mul]

theorem pure_density (d : ℕ) (psi : ℕ → ℂ) (h : ∑ i ∈ Finset.range d, Complex.normSq (psi i) = 1) : Master.Density (pure d psi) := by
  refine Master.density_pure _ ?_
  rw [MCWF.norm, ← Real.sqrt_one, ← h, Finset.sum_range]
  rfl

/-- The Bloch vector of the density operator of a system of two levels. -/
noncomputable def blochOf {d : ℕ} (h : 2 = d) (ρ : Matrix (Fin d) (Fin d) ℂ) : Fin 3 → ℝ := bloch (Matrix.of fun i j => ρ (Fin.cast h i) (Fin.cast h j))

/-- The generator is that of the pumped two-level atom. -/
def IsAtom (d : ℕ) (γ δ : ℝ) (η : ℂ) (A : Matrix (Fin d) (Fin d) ℂ) (J : List (Matrix (Fin d) (Fin d) ℂ)) : Prop :=
  Conserving A J ∧ ∀ ρ, lindblad A J ρ = lindblad (mat d (qbitH γ δ η)) [mat d (sc (Real.sqrt (2 * γ)) sigma)] ρ

theorem bloch_integrates.{v} (γ δ : ℝ) (η : ℂ) : Simulated.Integrates.{v} (fun _ => blochDerivs γ δ η) := by
  refine Simulated.affine_integrates (blochLinear γ δ η).toContinuousLinearMap (fun _ => blochDerivs γ δ η 0) continuous_const _ fun t y => ?_
  simp [blochLinear]

theorem bloch_dist (ρ σ : Matrix (Fin 2) (Fin 2) ℂ) (c : ℝ) (h : ∀ i j, ‖ρ i j - σ i j‖ ≤ c) (k : Fin 3) : |bloch ρ k - bloch σ k| ≤ 2 * c := by
  have e (z : ℂ) (hz : ‖z‖ ≤ c) : |z.re| ≤ c ∧ |z.im| ≤ c := ⟨(Complex.abs_re_le_norm z).trans hz, (Complex.abs_im_le_norm z).trans hz⟩
  have e0 := e _ (h 0 0)
  have e1 := e _ (h 0 1)
  simp only [Complex.sub_re, Complex.sub_im, abs_le] at e0 e1
  rw [abs_le]
  fin_cases k <;> simp [bloch] <;> constructor <;> linarith [e0.1.1, e0.1.2, e1.1.1, e1.1.2, e1.2.1, e1.2.2]

/-- The script of the Bloch equations agrees with the Master-equation trajectories of any system whose Master equation is that of the pumped two-level atom. -/
theorem bloch_agrees.{v} {d : ℕ} (hd : 2 = d) {S : Master.Sys d} {A : Matrix (Fin d) (Fin d) ℂ} {J : List (Matrix (Fin d) (Fin d) ℂ)} (h : Master.TracksMaster.{v} S A J) (γ δ : ℝ) (hγ : 0 ≤ γ) (η : ℂ)
    (hA : IsAtom d γ δ η A J) (q : ℂ) (hq : Complex.normSq q ≤ 1) (T : ℝ) (hT : 0 ≤ T) : ∃ C C', 0 ≤ C ∧ 0 ≤ C' ∧
      ∀ {κ κ' : Type v} (ε ε' : ℝ), 0 ≤ ε → ε ≤ 1 → 0 ≤ ε' → C' * ε' ≤ 1 →
      ∀ (b : Simulated.St 3 ℝ κ) (x : Master.St d κ'), Simulated.Arrives (fun _ => blochDerivs γ δ η) ε T (blochInit q) b → Master.Arrives S ε' T (pure d (QbitEl.init q)) x →
        b.t = T ∧ x.t = T ∧ ∀ k, |b.state k - blochOf hd x.rho k| ≤ C * ε + C' * ε' := by
  subst hd
  obtain ⟨hC, hJ⟩ := hA
  have hden := pure_density 2 (QbitEl.init q) (QbitEl.init_norm q hq).1
  set ρ : ℝ → Matrix (Fin 2) (Fin 2) ℂ := fun t => Master.sol A J t (pure 2 (QbitEl.init q)) with hρ
  have hρd : ∀ t i j, HasDerivAt (fun s => ρ s i j) (lindblad A J (ρ t) i j) t := by
    intro t i j
    have := Master.hasDerivAt_sol A J (pure 2 (QbitEl.init q)) 0 t i j
    simpa only [sub_zero] using this
  have hρ0 : ρ 0 = pure 2 (QbitEl.init q) := Master.sol_zero _ _ _
  have hsol : Unravel.Solves A J T ρ := fun t _ _ i j => hρd t i j
  have hy : Simulated.Solves (fun _ => blochDerivs γ δ η) T (fun t => bloch (ρ t)) := by
    intro t h0 _
    have hh : (ρ t).IsHermitian := Master.sol_hermitian A J _ hden.hermitian t h0
    have ht : (ρ t).trace = 1 := (Master.sol_trace A J hC _ t).trans hden.trace
    obtain ⟨e0, e1, e2⟩ := lindblad_ptla γ δ hγ η (ρ t) hh ht
    have h := hρd t
    rw [hJ] at h
    rw [hasDerivAt_pi]
    intro i
    fin_cases i
    · exact (((hasDerivAt_re (h 0 0)).const_mul 2).sub_const 1).congr_deriv e0
    · exact ((hasDerivAt_re (h 0 1)).const_mul 2).congr_deriv e1
    · exact ((hasDerivAt_im (h 0 1)).const_mul (-2)).congr_deriv e2
  have hy0 : bloch (ρ 0) = blochInit q := by rw [hρ0]; rfl
  obtain ⟨C, hC0, hrun⟩ := (bloch_integrates.{v} γ δ η).error T hT _ hy
  obtain ⟨C', hC0', hrun'⟩ := h.error T hT
  refine ⟨C, 2 * C', hC0, by positivity, ?_⟩
  rintro κ κ' ε ε' h0 h1 h0' h1' b x ⟨solver, Dt, labels, ces, dtInit, fuel, N, m, hs, hDt, hdt, hx⟩ ⟨solver', Dt', ces', dtInit', fuel', N', m', hs', hDt', hDt1', hdt', hx'⟩
  rw [← hy0] at hx
  obtain ⟨r1, r2⟩ := hrun solver ε Dt hs h0 h1 hDt labels ces dtInit hdt fuel N m b hx
  obtain ⟨q1, -, -, q2⟩ := hrun' solver' ε' Dt' hs' h0' (by nlinarith) hDt' hDt1' _ hden ces' dtInit' hdt' fuel' N' m' x hx'
  refine ⟨r1, q1, fun k => ?_⟩
  have s1 := (norm_le_pi_norm (b.state - bloch (ρ T)) k).trans r2
  have s2 := bloch_dist x.rho (ρ T) _ (q2 ρ hsol hρ0) k
  rw [Pi.sub_apply, Real.norm_eq_abs] at s1
  have s3 : |b.state k - bloch x.rho k| ≤ |b.state k - bloch (ρ T) k| + |bloch x.rho k - bloch (ρ T) k| := by
    rw [abs_sub_comm (bloch x.rho k)]; exact abs_sub_le _ _ _
  exact s3.trans (by linarith)

theorem qbit_atom (γ δ : ℝ) (hγ : 0 ≤ γ) (η : ℂ) : IsAtom 2 γ δ η (mat 2 (qbitH γ δ η)) ((modeJ γ 0).map (mat 2)) := by
  refine ⟨by rw [← QbitEl.qbitH_eq]; exact mode_conserving 2 (by norm_num) γ hγ δ _, fun ρ => ?_⟩
  by_cases h : γ = 0
  · subst h
    have : mat 2 (sc (Real.sqrt (2 * 0)) sigma) = 0 := by
      ext i j
      simp [mat_apply, sc]
    rw [this]
    simp [modeJ, lindblad]
  · unfold modeJ
    rw [if_neg h, if_pos rfl, List.map_cons, List.map_nil, QbitEl.mat_sigma]
    rfl

theorem ptla_atom (γ δ : ℝ) (hγ : 0 ≤ γ) (η : ℂ) : IsAtom 2 γ δ η (mat 2 (qbitH γ δ η)) [mat 2 (sc (Real.sqrt (2 * γ)) sigma)] := by
  refine ⟨?_, fun ρ => rfl⟩
  rw [← Master.lindblad_traceless_iff]
  intro rho
  rw [← (qbit_atom γ δ hγ η).2 rho]
  exact (Master.lindblad_traceless_iff _ _).2 (qbit_atom γ δ hγ η).1 rho

/-- **C119.** The pumped two-level atom of the other class in Master-equation trajectories. -/
theorem ptla_tracks.{v} (γ δ : ℝ) (hγ : 0 ≤ γ) (η : ℂ) : Master.TracksMaster.{v} (n := 2) (ptla γ δ η).toSys (mat 2 (qbitH γ δ η)) [mat 2 (sc (Real.sqrt (2 * γ)) sigma)] := by
  have hz : ∀ X : Matrix (Fin 2) (Fin 2) ℂ, X - ((0 : ℝ) : ℂ) • 1 = X := fun X => by simp
  have := Master.tracks_master.{v} (n := 2) (S := (ptla γ δ η).toSys) (W := fun _ => 0) (A := mat 2 (qbitH γ δ η)) (J := [mat 2 (sc (Real.sqrt (2 * γ)) sigma)])
    (fun t0 t rho hh hρ i j => ptla_master γ δ η t t0 rho hh hρ i j) (fun t t0 rho i j => (congrFun (congrFun (ptla_exactPart γ δ η t t0 rho) i) j).trans (by simp))
    0 le_rfl (by rw [hz]; exact (ptla_atom γ δ hγ η).1) (fun h => by cases h)
  rwa [hz] at this

/-- **C121.** The script of the Bloch equations agrees with the Master-equation trajectory of the pumped two-level atom, up to the errors of the two steppers. -/
theorem ptla_agrees.{v} (γ δ : ℝ) (hγ : 0 ≤ γ) (η : ℂ) (q : ℂ) (hq : Complex.normSq q ≤ 1) (T : ℝ) (hT : 0 ≤ T) : ∃ C C', 0 ≤ C ∧ 0 ≤ C' ∧
      ∀ {κ κ' : Type v} (ε ε' : ℝ), 0 ≤ ε → ε ≤ 1 → 0 ≤ ε' → C' * ε' ≤ 1 →
      ∀ (b : Simulated.St 3 ℝ κ) (x : Master.St 2 κ'), Simulated.Arrives (fun _ => blochDerivs γ δ η) ε T (blochInit q) b → Master.Arrives (n := 2) (ptla γ δ η).toSys ε' T (pure 2 (QbitEl.init q)) x →
        b.t = T ∧ x.t = T ∧ ∀ k, |b.state k - bloch x.rho k| ≤ C * ε + C' * ε' :=
  bloch_agrees rfl (ptla_tracks γ δ hγ η) γ δ hγ η (ptla_atom γ δ hγ η) q hq T hT

/-- **C121.** The same for the qbit, in any of the pictures the framework can use for the Master equation. -/
theorem qbit_agrees.{v} (p : QbitEl.Pars) (hγ : 0 ≤ p.gamma) (qmp : Picture) (hp : qmp ≠ .ip ∨ p.gamma = 0) (q : ℂ) (hq : Complex.normSq q ≤ 1) (T : ℝ) (hT : 0 ≤ T) :
    ∃ e, QbitEl.make p qmp = .ok e ∧ ∃ h : 2 = e.dim, ∃ C C', 0 ≤ C ∧ 0 ≤ C' ∧
      ∀ {κ κ' : Type v} (ε ε' : ℝ), 0 ≤ ε → ε ≤ 1 → 0 ≤ ε' → C' * ε' ≤ 1 →
      ∀ (b : Simulated.St 3 ℝ κ) (x : Master.St e.dim κ'), Simulated.Arrives (fun _ => blochDerivs p.gamma p.delta p.eta) ε T (blochInit q) b →
        Master.Arrives e.toSys ε' T (pure e.dim (QbitEl.init q)) x → b.t = T ∧ x.t = T ∧ ∀ k, |b.state k - blochOf h x.rho k| ≤ C * ε + C' * ε' := by
  obtain ⟨e, h1, h2, h3⟩ := Master.qbit_tracks.{v} p hγ qmp hp
  refine ⟨e, h1, h2.symm, bloch_agrees h2.symm h3 p.gamma p.delta hγ p.eta ?_ q hq T hT⟩
  rw [h2]
  exact qbit_atom p.gamma p.delta hγ p.eta

/-! ## The pumped two-level atom in low saturation -/

theorem lowSaturation_integrates.{v} (γ δ : ℝ) (η : ℂ) : Simulated.Integrates.{v} (fun _ => lowSaturationScript γ δ η) := by
  let A : (Fin 2 → ℝ) →ₗ[ℝ] (Fin 2 → ℝ) :=
    { toFun := fun b => ![-γ * b 0 - δ * b 1, δ * b 0 - γ * b 1]
      map_add' := fun a b => by funext i; fin_cases i <;> simp <;> ring
      map_smul' := fun c b => by funext i; fin_cases i <;> simp <;> ring }
  refine Simulated.affine_integrates A.toContinuousLinearMap (fun _ => ![-η.re, -η.im]) continuous_const _ fun t y => ?_
  funext i
  fin_cases i <;> simp [A, lowSaturationScript, lowSaturationDerivs] <;> ring

theorem linear_exact (z : ℂ) (g : ℝ → ℂ) (hg : Continuous g) (s0 : ℂ) : ∃ s : ℝ → ℂ, s 0 = s0 ∧ ∀ t, HasDerivAt s (z * s t + g t) t := by
  let A : (Fin 1 → ℂ) →ₗ[ℝ] (Fin 1 → ℂ) :=
    { toFun := fun b => ![z * b 0]
      map_add' := fun a b => by funext i; fin_cases i; simp; ring
      map_smul' := fun c b => by funext i; fin_cases i; simp; ring }
  obtain ⟨φ, h0, h⟩ := Simulated.affine_hasFlow A.toContinuousLinearMap (fun t => ![g t]) (continuous_pi fun i => by fin_cases i; exact hg) _ (fun t y => rfl) 0 ![s0]
  refine ⟨fun t => φ t 0, by simp [h0], fun t => ?_⟩
  exact hasDerivAt_pi.1 (h t) 0

/-- Solutions of the Master equation remain Hermitian and of trace one. -/
theorem solves_density {d : ℕ} {A : Matrix (Fin d) (Fin d) ℂ} {J : List (Matrix (Fin d) (Fin d) ℂ)} (hC : Conserving A J) {T : ℝ} {ρ : ℝ → Matrix (Fin d) (Fin d) ℂ} (h : Unravel.Solves A J T ρ)
    (h0 : Master.Density (ρ 0)) (t : ℝ) (ht : 0 ≤ t) (htT : t ≤ T) : (ρ t).IsHermitian ∧ (ρ t).trace = 1 := by
  have := Master.sol_unique A J 0 t ht ρ fun r a b => h r a (by linarith)
  rw [zero_add] at this
  rw [this]
  exact ⟨Master.sol_hermitian A J _ h0.hermitian t ht, (Master.sol_trace A J hC _ t).trans h0.trace⟩

theorem dipole_generator (γ δ : ℝ) (η : ℂ) (ρ : Matrix (Fin 2) (Fin 2) ℂ) (ht : ρ.trace = 1) :
    lindblad (mat 2 (qbitH γ δ η)) [mat 2 (sc (Real.sqrt (2 * γ)) sigma)] ρ 1 0 = lowSaturationDerivs γ δ η (ρ 1 0) + 2 * η * ρ 1 1 := by
  have h00 : ρ 0 0 = 1 - ρ 1 1 := by
    rw [Matrix.trace, Fin.sum_univ_two] at ht; simp only [Matrix.diag_apply] at ht; linear_combination ht
  have hz : (⟨-γ, δ⟩ : ℂ) = -γ + δ * Complex.I := by apply Complex.ext <;> simp
  simp [lindblad, Matrix.mul_apply, Fin.sum_univ_two, mat_apply, qbitH, excited, sigma, sigmaDag, sc, Matrix.conjTranspose_apply, lowSaturationDerivs, h00, hz]
  ring

/-- **C121.** The script of low saturation agrees with the Master-equation trajectory of the pumped two-level atom up to the errors of the two steppers, and the effect of the saturation neglected: it is at most proportional to
the population `P` of the excited state. -/
theorem lowSaturation_agrees.{v} (γ δ : ℝ) (hγ : 0 ≤ γ) (η : ℂ) (q : ℂ) (hq : Complex.normSq q ≤ 1) (T : ℝ) (hT : 0 ≤ T) : ∃ C C', 0 ≤ C ∧ 0 ≤ C' ∧
      ∀ {κ κ' : Type v} (ε ε' : ℝ), 0 ≤ ε → ε ≤ 1 → 0 ≤ ε' → C' * ε' ≤ 1 →
      ∀ (b : Simulated.St 2 ℝ κ) (x : Master.St 2 κ'), Simulated.Arrives (fun _ => lowSaturationScript γ δ η) ε T (lowSaturationInit q) b →
        Master.Arrives (n := 2) (ptla γ δ η).toSys ε' T (pure 2 (QbitEl.init q)) x →
        ∀ (ρ : ℝ → Matrix (Fin 2) (Fin 2) ℂ) (P : ℝ), Unravel.Solves (mat 2 (qbitH γ δ η)) [mat 2 (sc (Real.sqrt (2 * γ)) sigma)] T ρ → ρ 0 = pure 2 (QbitEl.init q) → (∀ t, 0 ≤ t → t ≤ T → ‖ρ t 1 1‖ ≤ P) →
        b.t = T ∧ x.t = T ∧ ‖(⟨b.state 0, b.state 1⟩ : ℂ) - x.rho 1 0‖ ≤ C * ε + C' * ε' + 2 * ‖η‖ * P * T := by
  have hden := pure_density 2 (QbitEl.init q) (QbitEl.init_norm q hq).1
  obtain ⟨s, hs0, hs⟩ := linear_exact ⟨-γ, δ⟩ (fun _ => -η) continuous_const (pure 2 (QbitEl.init q) 1 0)
  have hy : Simulated.Solves (fun _ => lowSaturationScript γ δ η) T (fun t => ![(s t).re, (s t).im]) := by
    intro t _ _
    rw [hasDerivAt_pi]
    intro i
    fin_cases i
    · exact (hasDerivAt_re (hs t)).congr_deriv (by simp [lowSaturationScript, lowSaturationDerivs]; ring)
    · exact (hasDerivAt_im (hs t)).congr_deriv (by simp [lowSaturationScript, lowSaturationDerivs]; ring)
  have hy0 : ![(s 0).re, (s 0).im] = lowSaturationInit q := by rw [hs0]; rfl
  obtain ⟨C, hC0, hrun⟩ := (lowSaturation_integrates.{v} γ δ η).error T hT _ hy
  obtain ⟨C', hC0', hrun'⟩ := (ptla_tracks.{v} γ δ hγ η).error T hT
  refine ⟨2 * C, C', by positivity, hC0', ?_⟩
  rintro κ κ' ε ε' h0 h1 h0' h1' b x ⟨solver, Dt, labels, ces, dtInit, fuel, N, m, hso, hDt, hdt, hx⟩ ⟨solver', Dt', ces', dtInit', fuel', N', m', hs', hDt', hDt1', hdt', hx'⟩ ρ P hρ hρ0 hP
  rw [← hy0] at hx
  obtain ⟨r1, r2⟩ := hrun solver ε Dt hso h0 h1 hDt labels ces dtInit hdt fuel N m b hx
  obtain ⟨q1, -, -, q2⟩ := hrun' solver' ε' Dt' hs' h0' h1' hDt' hDt1' _ hden ces' dtInit' hdt' fuel' N' m' x hx'
  refine ⟨r1, q1, ?_⟩
  have hdev := deviation ⟨-γ, δ⟩ (by simpa using hγ) T (2 * ‖η‖ * P) hT (fun t => s t - ρ t 1 0) (fun t => -(2 * η * ρ t 1 1)) (fun t a c => by
    refine ((hs t).sub (hρ t a c 1 0)).congr_deriv ?_
    rw [dipole_generator γ δ η (ρ t) (solves_density (ptla_atom γ δ hγ η).1 hρ (by rw [hρ0]; exact hden) t a c).2, lowSaturationDerivs]
    ring) (fun t a c => by
    rw [norm_neg, norm_mul, norm_mul, Complex.norm_ofNat]
    exact mul_le_mul_of_nonneg_left (hP t a c) (by positivity))
  rw [hs0, hρ0, sub_self, norm_zero, mul_zero, zero_add] at hdev
  have s1 := (norm_le_pi_norm (b.state - ![(s T).re, (s T).im]) 0).trans r2
  have s2 := (norm_le_pi_norm (b.state - ![(s T).re, (s T).im]) 1).trans r2
  have s3 : ‖(⟨b.state 0, b.state 1⟩ : ℂ) - s T‖ ≤ 2 * C * ε := by
    refine (Complex.norm_le_abs_re_add_abs_im _).trans ?_
    simp only [Pi.sub_apply, Real.norm_eq_abs, Matrix.cons_val_zero, Matrix.cons_val_one] at s1 s2
    rw [Complex.sub_re, Complex.sub_im]
    linarith
  have s4 := q2 ρ hρ hρ0 1 0
  calc _ = ‖((⟨b.state 0, b.state 1⟩ : ℂ) - s T) + (s T - ρ T 1 0) - (x.rho 1 0 - ρ T 1 0)‖ := by congr 1; ring
    _ ≤ _ := (norm_sub_le _ _).trans (add_le_add (norm_add_le _ _) le_rfl)
    _ ≤ _ := by linarith

/-! ## The amplitude of the mode -/

theorem modeScript_integrates.{v} (p : ModeEl.ParsBichromatic) : Simulated.Integrates.{v} (modeScript p) := by
  let A : (Fin 1 → ℂ) →ₗ[ℝ] (Fin 1 → ℂ) :=
    { toFun := fun b => ![⟨-p.kappa, p.delta⟩ * b 0]
      map_add' := fun a b => by funext i; fin_cases i; simp; ring
      map_smul' := fun c b => by funext i; fin_cases i; simp; ring }
  refine Simulated.affine_integrates A.toContinuousLinearMap (fun t => ![p.eta + p.etaOther * Complex.exp (Complex.I * t * (p.deltaOther + p.delta))])
    (continuous_pi fun i => by fin_cases i; show Continuous fun t : ℝ => p.eta + p.etaOther * Complex.exp (Complex.I * t * (p.deltaOther + p.delta)); fun_prop) _ fun t y => ?_
  funext i
  fin_cases i
  simp [A, modeScript, modeDerivs]
  ring

theorem expectation_dist {d : ℕ} (A ρ σ : Matrix (Fin d) (Fin d) ℂ) (c : ℝ) (h : ∀ i j, ‖ρ i j - σ i j‖ ≤ c) : ‖expectation A ρ - expectation A σ‖ ≤ (∑ i, ∑ j, ‖A i j‖) * c := by
  have e : expectation A ρ - expectation A σ = ∑ i, ∑ j, A i j * (ρ j i - σ j i) := by
    simp [expectation, Matrix.trace, Matrix.mul_apply, mul_sub, Finset.sum_sub_distrib]
  rw [e, Finset.sum_mul]
  refine (norm_sum_le _ _).trans (Finset.sum_le_sum fun i _ => ?_)
  rw [Finset.sum_mul]
  refine (norm_sum_le _ _).trans (Finset.sum_le_sum fun j _ => ?_)
  rw [norm_mul]
  exact mul_le_mul_of_nonneg_left (h j i) (_root_.norm_nonneg _)

/-- **C121.** The script integrating the amplitude of the pumped lossy mode agrees with the mean amplitude of the Master-equation trajectory of the mode, up to the errors of the two steppers, the difference of the initial
values, which is damped, and the effect of the cutoff, which is at most proportional to the population `P` of the highest level kept. -/
theorem mode_agrees.{v} (p : ModeEl.Pars) (hd : p.cutoff < 2 ^ 63) (h0 : 0 < p.cutoff) (hκ : 0 ≤ p.kappa) (hn : p.nTh = 0) (hK : p.omegaKerr = 0) (hA : p.omegaKerrAlter = 0) (qmp : Picture)
    (hp : qmp ≠ .ip ∨ p.kappa = 0) (T : ℝ) (hT : 0 ≤ T) (α0 : ℂ) : ∃ e, makePumpedLossy p qmp = .ok e ∧ e.dim = p.cutoff ∧ ∃ C C', 0 ≤ C ∧ 0 ≤ C' ∧
      ∀ {κ κ' : Type v} (ε ε' : ℝ), 0 ≤ ε → ε ≤ 1 → 0 ≤ ε' → C' * ε' ≤ 1 →
      ∀ (b : Simulated.St 1 ℂ κ) (x : Master.St e.dim κ') (rho : Matrix (Fin e.dim) (Fin e.dim) ℂ), Master.Density rho → Simulated.Arrives (modeScript (monochromatic p)) ε T ![α0] b →
        Master.Arrives e.toSys ε' T rho x →
        ∀ (ρ : ℝ → Matrix (Fin e.dim) (Fin e.dim) ℂ) (P : ℝ), Unravel.Solves (mat e.dim (modeH p.kappa p.delta p.eta)) ((modeJ p.kappa 0).map (mat e.dim)) T ρ → ρ 0 = rho →
        (∀ t, 0 ≤ t → t ≤ T → ‖expectation (top e.dim) (ρ t)‖ ≤ P) →
        b.t = T ∧ x.t = T ∧ ‖b.state 0 - amplitude e.dim x.rho‖ ≤ C * ε + C' * ε' + Real.exp (-p.kappa * T) * ‖α0 - amplitude e.dim rho‖ + ‖p.eta‖ * p.cutoff * P * T := by
  obtain ⟨e, he, hdim, htr⟩ := Master.mode_tracks.{v} p hd h0 hκ hn hK hA qmp hp
  refine ⟨e, he, hdim, ?_⟩
  obtain ⟨s, hs0, hs⟩ := linear_exact ⟨-p.kappa, p.delta⟩ (fun _ => p.eta) continuous_const α0
  have hy : Simulated.Solves (modeScript (monochromatic p)) T (fun t => ![s t]) := by
    intro t _ _
    rw [hasDerivAt_pi]
    intro i
    fin_cases i
    exact (hs t).congr_deriv (by simp [modeScript, modeDerivs, monochromatic])
  have hy0 : ![s 0] = ![α0] := by rw [hs0]
  obtain ⟨C, hC0, hrun⟩ := (modeScript_integrates.{v} (monochromatic p)).error T hT _ hy
  obtain ⟨C', hC0', hrun'⟩ := htr.error T hT
  set a := ∑ i, ∑ j, ‖mat e.dim aOp i j‖ with ha
  have ha0 : 0 ≤ a := Finset.sum_nonneg fun i _ => Finset.sum_nonneg fun j _ => _root_.norm_nonneg _
  refine ⟨C, (a + 1) * C', hC0, by positivity, ?_⟩
  rintro κ κ' ε ε' h0 h1 h0' h1' b x rho hden ⟨solver, Dt, labels, ces, dtInit, fuel, N, m, hso, hDt, hdt, hx⟩ ⟨solver', Dt', ces', dtInit', fuel', N', m', hs', hDt', hDt1', hdt', hx'⟩ ρ P hρ hρ0 hP
  rw [← hy0] at hx
  have hCe : 0 ≤ a * (C' * ε') := by positivity
  obtain ⟨r1, r2⟩ := hrun solver ε Dt hso h0 h1 hDt labels ces dtInit hdt fuel N m b hx
  obtain ⟨q1, -, q3, q2⟩ := hrun' solver' ε' Dt' hs' h0' (by nlinarith [mul_nonneg hC0' h0']) hDt' hDt1' _ hden ces' dtInit' hdt' fuel' N' m' x hx'
  refine ⟨r1, q1, ?_⟩
  have hcons : Conserving (mat e.dim (modeH p.kappa p.delta p.eta)) ((modeJ p.kappa 0).map (mat e.dim)) := mode_conserving e.dim (by omega) p.kappa hκ p.delta p.eta
  have hdev := deviation ⟨-p.kappa, p.delta⟩ (by simpa using hκ) T (‖p.eta‖ * p.cutoff * P) hT (fun t => s t - expectation (mat e.dim aOp) (ρ t)) (fun t => p.eta * (e.dim * expectation (top e.dim) (ρ t))) (fun t u c => by
    refine ((hs t).sub (expectation_hasDerivAt _ ρ _ t (hρ t u c))).congr_deriv ?_
    have hg := amplitude_generator e.dim p.kappa 0 hκ le_rfl p.delta p.eta (ρ t)
    rw [mul_zero, zero_add, mul_one] at hg
    rw [hg, (solves_density hcons hρ (by rw [hρ0]; exact hden) t u c).2]
    have hz : (⟨-p.kappa, p.delta⟩ : ℂ) = -p.kappa + Complex.I * p.delta := by apply Complex.ext <;> simp
    rw [hz]
    push_cast
    ring) (fun t u c => by
    rw [norm_mul, norm_mul, Complex.norm_natCast, show (p.cutoff : ℝ) = e.dim by rw [hdim], mul_assoc]
    exact mul_le_mul_of_nonneg_left (mul_le_mul_of_nonneg_left (hP t u c) (by positivity)) (by positivity))
  rw [hs0, hρ0] at hdev
  have s1 : ‖b.state 0 - s T‖ ≤ C * ε := (norm_le_pi_norm (b.state - ![s T]) 0).trans r2
  have s4 := expectation_dist (mat e.dim aOp) x.rho (ρ T) _ (q2 ρ hρ hρ0)
  unfold amplitude
  rw [q3, hden.trace, div_one, div_one]
  calc _ = ‖(b.state 0 - s T) + (s T - expectation (mat e.dim aOp) (ρ T)) - (expectation (mat e.dim aOp) x.rho - expectation (mat e.dim aOp) (ρ T))‖ := by congr 1; ring
    _ ≤ _ := (norm_sub_le _ _).trans (add_le_add (norm_add_le _ _) le_rfl)
    _ ≤ _ := by
      rw [← ha] at s4
      have : 0 ≤ C' * ε' := mul_nonneg hC0' h0'
      nlinarith

/-! ## Concrete cases -/

/-- An underdamped oscillator driven off resonance. -/
example : ∃ (κ : Type) (x : Simulated.St 2 ℂ κ), Simulated.Arrives (oscillatorDerivs 2 (1 / 10)) 0 3 ![1, Complex.I] x ∧ x.t = 3 ∧ x.state 0 = (DDHO.make (1 / 10) 2 1 Complex.I 0).amp 3 := by
  obtain ⟨κ, x, hx⟩ := (oscillator_integrates.{0} 2 (1 / 10)).arrives 3 ![1, Complex.I]
  obtain ⟨C, -, h⟩ := oscillator_agrees.{0} 2 (1 / 10) (by norm_num) (by norm_num) 1 Complex.I 3 (by norm_num)
  obtain ⟨h1, h2, -⟩ := h 0 le_rfl zero_le_one x hx
  refine ⟨κ, x, hx, h1, ?_⟩
  rw [mul_zero] at h2
  exact sub_eq_zero.1 (norm_le_zero_iff.1 h2)

/-- The script and the simulation of a decaying, pumped atom give the same with steppers without error. -/
example : ∃ (κ κ' : Type) (b : Simulated.St 3 ℝ κ) (x : Master.St 2 κ'), Simulated.Arrives (fun _ => blochDerivs 1 2 ⟨3, 1⟩) 0 5 (blochInit (1 / 2)) b ∧
    Master.Arrives (n := 2) (ptla 1 2 ⟨3, 1⟩).toSys 0 5 (pure 2 (QbitEl.init (1 / 2))) x ∧ b.state = bloch x.rho := by
  obtain ⟨κ, b, hb⟩ := (bloch_integrates.{0} 1 2 ⟨3, 1⟩).arrives 5 (blochInit (1 / 2))
  obtain ⟨κ', x, hx⟩ := (ptla_tracks.{0} 1 2 zero_le_one ⟨3, 1⟩).arrives 5 (pure 2 (QbitEl.init (1 / 2)))
  obtain ⟨C, C', -, -, h⟩ := ptla_agrees.{0} 1 2 zero_le_one ⟨3, 1⟩ (1 / 2) (by norm_num [Complex.normSq_apply]) 5 (by norm_num)
  obtain ⟨-, -, h2⟩ := h 0 0 le_rfl zero_le_one le_rfl (by rw [mul_zero]; exact zero_le_one) b x hb hx
  refine ⟨κ, κ', b, x, hb, hx, funext fun k => ?_⟩
  have := h2 k
  rw [mul_zero, mul_zero, add_zero] at this
  exact sub_eq_zero.1 (abs_nonpos_iff.1 this)

/-- The script of low saturation and the decay of an atom which is not pumped: the population does not matter then. -/
example : ∃ (κ κ' : Type) (b : Simulated.St 2 ℝ κ) (x : Master.St 2 κ'), Simulated.Arrives (fun _ => lowSaturationScript 1 2 0) 0 5 (lowSaturationInit (1 / 2)) b ∧
    Master.Arrives (n := 2) (ptla 1 2 0).toSys 0 5 (pure 2 (QbitEl.init (1 / 2))) x ∧ (⟨b.state 0, b.state 1⟩ : ℂ) = x.rho 1 0 := by
  obtain ⟨κ, b, hb⟩ := (lowSaturation_integrates.{0} 1 2 0).arrives 5 (lowSaturationInit (1 / 2))
  obtain ⟨κ', x, hx⟩ := (ptla_tracks.{0} 1 2 zero_le_one 0).arrives 5 (pure 2 (QbitEl.init (1 / 2)))
  obtain ⟨C, C', -, -, h⟩ := lowSaturation_agrees.{0} 1 2 zero_le_one 0 (1 / 2) (by norm_num [Complex.normSq_apply]) 5 (by norm_num)
  let A := mat 2 (qbitH 1 2 0)
  let J := [mat 2 (sc (Real.sqrt (2 * 1)) sigma)]
  obtain ⟨M, hM, hMb⟩ := Unravel.semi_bound (Unravel.gen A J) 5
  have hden := pure_density 2 (QbitEl.init (1 / 2)) (QbitEl.init_norm (1 / 2) (by norm_num [Complex.normSq_apply])).1
  obtain ⟨-, -, h2⟩ := h 0 0 le_rfl zero_le_one le_rfl (by rw [mul_zero]; exact zero_le_one) b x hb hx (fun t => Master.sol A J t (pure 2 (QbitEl.init (1 / 2)))) M
    (fun t _ _ i j => by simpa only [sub_zero] using Master.hasDerivAt_sol A J (pure 2 (QbitEl.init (1 / 2))) 0 t i j) (Master.sol_zero _ _ _)
    (fun t a c => (Master.sol_bound A J (hMb t a c) zero_le_one hden.bounded 1 1).trans_eq (mul_one M))
  refine ⟨κ, κ', b, x, hb, hx, ?_⟩
  rw [norm_zero, mul_zero, mul_zero, mul_zero, zero_mul, zero_mul, add_zero, add_zero] at h2
  exact sub_eq_zero.1 (norm_le_zero_iff.1 h2)

/-- A pumped lossy mode of five levels started from the vacuum, in the interaction picture: everything supposed is met. -/
example : ∃ e, makePumpedLossy ⟨5, 2, 0, 0, 1, 0, 1 / 2⟩ .uip = .ok e ∧ ∃ (κ κ' : Type) (b : Simulated.St 1 ℂ κ) (x : Master.St e.dim κ') (P : ℝ),
    Simulated.Arrives (modeScript (monochromatic ⟨5, 2, 0, 0, 1, 0, 1 / 2⟩)) 0 3 ![0] b ∧ Master.Arrives e.toSys 0 3 (pure e.dim fun i => if i = 0 then 1 else 0) x ∧
    ‖b.state 0 - amplitude e.dim x.rho‖ ≤ 1 / 2 * 5 * P * 3 := by
  let p : ModeEl.Pars := ⟨5, 2, 0, 0, 1, 0, 1 / 2⟩
  obtain ⟨e, he, hdim, C, C', -, -, h⟩ := mode_agrees.{0} p (by norm_num [p]) (by norm_num [p]) (by norm_num [p]) rfl rfl rfl .uip (Or.inl (by decide)) 3 (by norm_num) 0
  obtain ⟨e', he', -, htr⟩ := Master.mode_tracks.{0} p (by norm_num [p]) (by norm_num [p]) (by norm_num [p]) rfl rfl rfl .uip (Or.inl (by decide))
  rw [he] at he'
  injection he' with he'
  subst he'
  refine ⟨e, he, ?_⟩
  have hden := pure_density e.dim (fun i => if i = 0 then 1 else 0) (by
    rw [hdim]; simp [p, Finset.sum_range_succ])
  obtain ⟨κ, b, hb⟩ := (modeScript_integrates.{0} (monochromatic p)).arrives 3 ![0]
  obtain ⟨κ', x, hx⟩ := htr.arrives 3 (pure e.dim fun i => if i = 0 then 1 else 0)
  set rho := pure e.dim fun i => if i = 0 then (1 : ℂ) else 0 with hrho
  let A := mat e.dim (modeH p.kappa p.delta p.eta)
  let J := (modeJ p.kappa 0).map (mat e.dim)
  obtain ⟨M, hM, hMb⟩ := Unravel.semi_bound (Unravel.gen A J) 3
  let S := ∑ i, ∑ j, ‖top e.dim i j‖
  obtain ⟨-, -, h2⟩ := h 0 0 le_rfl zero_le_one le_rfl (by rw [mul_zero]; exact zero_le_one) b x rho hden hb hx (fun t => Master.sol A J t rho) (S * M)
    (fun t _ _ i j => by simpa only [sub_zero] using Master.hasDerivAt_sol A J rho 0 t i j) (Master.sol_zero _ _ _)
    (fun t a c => by
      have := expectation_dist (top e.dim) (Master.sol A J t rho) 0 M fun i j => by
        simpa using (Master.sol_bound A J (hMb t a c) zero_le_one hden.bounded i j)
      simpa [expectation] using this)
  refine ⟨κ, κ', b, x, S * M, hb, hx, ?_⟩
  have hz : amplitude e.dim rho = 0 := by
    unfold amplitude expectation
    rw [div_eq_zero_iff]; left
    simp only [Matrix.trace, Matrix.diag_apply, Matrix.mul_apply]
    refine Finset.sum_eq_zero fun i _ => Finset.sum_eq_zero fun j _ => ?_
    rw [hrho]
    simp only [pure, vecMulVec_apply, ket, mat_apply, aOp]
    by_cases hj : (j : ℕ) = 0
    · rw [if_neg (by omega), zero_mul]
    · simp [hj]
  rw [hz, sub_zero, norm_zero, mul_zero, mul_zero, mul_zero, zero_add, zero_add] at h2
  refine h2.trans_eq ?_
  simp [p]

end CppQED.Evolved
