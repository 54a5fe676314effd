import Verif.Props.MCWFLog
import Verif.Props.Master
import Verif.Props.Ensemble

/-!
# Concrete cases of the theorems on steps, Monte Carlo and Master-equation trajectories, and ensembles

The systems are those of the examples in the files of the theorems.
-/

namespace CppQED.ODE

/-- `step_forward`: the step of `exampleStepper`, which rejects trials longer than 1. -/
example (s' t' : ℝ) (e' : Engine Unit) (h : step exampleStepper 3 5 ⟨(), 0, 3, 0, 0⟩ (2 : ℝ) 1 = some (s', t', e')) : t' = 1 + e'.dtDid ∧ 0 < e'.dtDid ∧ e'.dtDid ≤ 3 ∧ e'.nSteps = 1 := by
  obtain ⟨h1, h2, -, h4, -, -, -, h8, -⟩ := step_forward exampleStepper (gsl_controlled _ _ (fun _ _ h => h) (fun _ _ h => h)) 3 5 (by norm_num) ⟨(), 0, 3, 0, 0⟩ (by norm_num) 2 1 s' t' e' h
  exact ⟨h1, h2, h4, h8⟩

/-- A stepper which halves the trial after a failure. -/
noncomputable def halvingStepper : Stepper ℝ Unit := fun k y t d => open Classical in if |d| ≤ 1 then (⟨true, y + d, t + d, d⟩, k) else (⟨false, y, t, d / 2⟩, k)

/-- `trials_terminate`: at most seven trials are needed from a trial step of 4. -/
example : ∃ r, tryLoop halvingStepper (7 + 1) () (2 : ℝ) 1 4 0 = some r := by
  have hc : Controlled halvingStepper := by
    constructor <;> intros <;> unfold halvingStepper at * <;> split_ifs at * <;> simp_all
    all_goals constructor <;> linarith
  refine trials_terminate halvingStepper hc 1 one_pos ?_ (1 / 2) ?_ (by norm_num) () 2 1 4 (by norm_num) 0 7 (by norm_num)
  · intro k s t d h0 h1
    unfold halvingStepper
    rw [if_pos (by rw [abs_of_pos h0]; exact h1.le)]
  · intro k s t d h0 h
    unfold halvingStepper at h ⊢
    split_ifs at h ⊢ with h1
    show d / 2 ≤ 1 / 2 * d
    linarith

/-- `step_backward`: a step back by at most 2 after a step of 1. -/
example : ∃ s' t' e', step exampleStepper 1 (-2) ⟨(), 1, 3, 1, 0⟩ (2 : ℝ) 1 = some (s', t', e') ∧ e'.dtDid < 0 ∧ -1 ≤ e'.dtDid := by
  have hs : ∃ s' t' e', step exampleStepper 1 (-2) ⟨(), 1, 3, 1, 0⟩ (2 : ℝ) 1 = some (s', t', e') := by
    have hft : firstTry (-2) 3 1 = -1 := by
      unfold firstTry
      rw [sign_neg (by norm_num : (-2 : ℝ) < 0), sign_pos (by norm_num : (0 : ℝ) < 3)]
      norm_num
    have e1 : exampleStepper () (2 : ℝ) 1 (-1) = (⟨true, 2 + -1, 1 + -1, -1⟩, ()) := by
      unfold exampleStepper gslTryStep; simp only; rw [if_pos (by norm_num)]
    unfold step
    simp only [hft, tryLoop, e1, if_true, Option.map_some]
    exact ⟨_, _, _, rfl⟩
  obtain ⟨s', t', e', h⟩ := hs
  obtain ⟨-, h2, -, h4⟩ := step_backward exampleStepper (gsl_controlled _ _ (fun _ _ h => h) (fun _ _ h => h)) 1 (-2) (by norm_num) ⟨(), 1, 3, 1, 0⟩ (by norm_num) (by norm_num) 2 1 s' t' e' h
  exact ⟨s', t', e', h, h2, h4⟩

/-- `backward_first_step_stalls`. -/
example : ∃ s' e', step exampleStepper (0 + 1) (-2) ⟨(), 0, 3, 0, 0⟩ (2 : ℝ) 1 = some (s', 1, e') ∧ e'.dtDid = 0 :=
  backward_first_step_stalls exampleStepper (gsl_controlled _ _ (fun _ _ h => h) (fun _ _ h => h)) 0 (-2) (by norm_num) ⟨(), 0, 3, 0, 0⟩ (by norm_num) rfl 2 1 (by
    unfold exampleStepper gslTryStep; simp)

end CppQED.ODE

namespace CppQED.Master
open Matrix CppQED.Spec
open scoped ComplexOrder

/-- `derivative_eq`, `exactPart_eq`, `exactPart_posSemidef`, `lindblad_hermitian`, `construct_initial`: the two-level system. -/
example : derivative exampleSys 1 0 !![1 / 2, 1 / 2; 1 / 2, 1 / 2] = lindblad exG [exJ] !![1 / 2, 1 / 2; 1 / 2, 1 / 2] ∧ (derivative exampleSys 1 0 !![1 / 2, 1 / 2; 1 / 2, 1 / 2]).IsHermitian ∧
    exactPart exampleSys 1 0 1 = exU * 1 * exUᴴ ∧ (exactPart exampleSys 1 0 1).PosSemidef ∧
    ∃ x, construct exampleSys true !![1 / 2, 1 / 2; 1 / 2, 1 / 2] (⟨(), 0, 1, 0, 0⟩ : ODE.Engine Unit) = some x ∧ x.t = 0 ∧ x.t0 = 0 := by
  have hh : (!![1 / 2, 1 / 2; 1 / 2, 1 / 2] : Rho 2).IsHermitian := by ext i j; fin_cases i <;> fin_cases j <;> simp
  have h1 := derivative_eq exampleSys _ _ 1 _ exampleSys_linear 1 0 !![1 / 2, 1 / 2; 1 / 2, 1 / 2] hh
  refine ⟨h1, ?_, exactPart_eq exampleSys _ rfl 1 0 exU (fun _ => rfl) 1, exactPart_posSemidef exampleSys _ rfl 1 0 exU (fun _ => rfl) 1 PosSemidef.one, ?_⟩
  · rw [h1]; exact lindblad_hermitian _ _ _ hh
  · obtain ⟨x, hx⟩ := Option.isSome_iff_exists.1 ((construct_iff exampleSys true !![1 / 2, 1 / 2; 1 / 2, 1 / 2] (⟨(), 0, 1, 0, 0⟩ : ODE.Engine Unit)).2 ⟨fun _ => rfl, rfl⟩)
    exact ⟨x, hx, (construct_initial _ _ _ _ x hx).1, (construct_initial _ _ _ _ x hx).2.1⟩

/-- `reload_after_step`: a step of 1/10 can be saved and loaded. -/
example (y : St 2 Unit) : ∃ z, step exampleSolver exampleSys 1 (1 / 10) ⟨0, 0, !![1 / 2, 1 / 2; 1 / 2, 1 / 2], ⟨(), 0, 1, 0, 0⟩⟩ = some z ∧ load (save z) y = z := by
  have hsome : ∃ z, step exampleSolver exampleSys 1 (1 / 10) ⟨0, 0, !![1 / 2, 1 / 2; 1 / 2, 1 / 2], ⟨(), 0, 1, 0, 0⟩⟩ = some z := by
    unfold step ODE.step
    simp only [ODE.tryLoop, exampleSolver, ODE.gslTryStep]
    exact ⟨_, rfl⟩
  obtain ⟨z, hz⟩ := hsome
  exact ⟨z, hz, reload_after_step _ _ _ _ _ z hz y⟩

/-- `rungeKutta_preserves`: the classical fourth-order method with the Lindblad form of the two-level system. -/
example (y : Rho 2) (hy : y.IsHermitian) : (rungeKutta (fun _ => lindblad exG [exJ]) [⟨0, []⟩, ⟨1 / 2, [1 / 2]⟩, ⟨1 / 2, [0, 1 / 2]⟩, ⟨1, [0, 0, 1]⟩] [1 / 6, 1 / 3, 1 / 3, 1 / 6] 0 (1 / 10) y).trace = y.trace :=
  (rungeKutta_preserves _ (fun _ y h => lindblad_hermitian _ _ y h) (fun _ y _ => (lindblad_traceless_iff exG [exJ]).2 example_conserving y) _ _ 0 (1 / 10) y hy).2

end CppQED.Master

namespace CppQED.MCWF
open CppQED.Spec MeasureTheory

theorem exampleLim_ok : 0 < exampleLim.dpLimit ∧ 1 ≤ exampleLim.overshootTolerance := by norm_num [exampleLim]

/-- `effectiveRates_spec`, `effectiveRates_consistent`: of two channels of one half rate, the rate of the second one is given indirectly. -/
example : effectiveRates (⟨fun _ _ => [1 / 2, -1], fun _ psi _ i => (Real.sqrt (1 / 2) : ℂ) * psi i⟩ : Li (Fin 2)) 0 examplePsi = [1 / 2, 1 / 2] := by
  have hc : Consistent (⟨fun _ _ => [1 / 2, -1], fun _ psi _ i => (Real.sqrt (1 / 2) : ℂ) * psi i⟩ : Li (Fin 2)) := by
    intro t psi hpsi i r hr h0
    have : r = 1 / 2 := by
      rcases i with _ | _ | i
      · simpa [eq_comm] using hr
      · simp at hr; linarith
      · simp at hr
    rw [norm_smul_real _ (Real.sqrt_nonneg _), hpsi, mul_one, Real.sq_sqrt (by norm_num), this]
  have hn : norm (fun i => (Real.sqrt (1 / 2) : ℂ) * examplePsi i) ^ 2 = 1 / 2 := by
    rw [norm_smul_real _ (Real.sqrt_nonneg _), norm_examplePsi, mul_one, Real.sq_sqrt (by norm_num)]
  refine List.ext_getElem? fun i => ?_
  rcases i with _ | _ | i
  · exact (effectiveRates_spec _ 0 examplePsi 0 (1 / 2) rfl).1 (by norm_num)
  · rw [effectiveRates_consistent _ hc 0 examplePsi norm_examplePsi 1 (by simp)]
    simp only [hn]
    rfl
  · simp [effectiveRates]

/-- `jump_probability`: with the rates 1 and 2 and a step of 1/10, the second jump has the probability 1/5. -/
example : volume {u : ℝ | u ∈ Set.Ico 0 1 ∧ selectJump [1, 2] u (1 / 10) = some 1} = ENNReal.ofReal (2 * (1 / 10)) :=
  jump_probability [1, 2] (by simp) (1 / 10) (by norm_num) (by norm_num) 1 (by simp)

/-- `performJump_spec`: a sample of 1/4 gives a jump in a step of 1/2 with the rate 1. -/
example (x : St (Fin 2) Unit) (hx : x.psi = examplePsi) (hd : x.dtDid = 1 / 2) (ht : x.t = 0) (l : Li (Fin 2)) (hl : exampleSys.li = some l) :
    (performJump l (fun _ => 1 / 4) x).nRandom = x.nRandom + 1 ∧ l.actWithJ x.t x.psi 0 ≠ 0 := by
  obtain ⟨h1, -, h3, -⟩ := performJump_spec l (exampleSys_wellBehaved.li_consistent l hl) (fun _ => 1 / 4) (fun _ => by norm_num) x (by rw [hx]; exact norm_examplePsi) (by rw [hd]; norm_num)
  refine ⟨h3, (h1 0 ?_ ?_ ?_).1⟩ <;> rw [example_rates _ _ l hl] <;> simp [hd, ht] <;> norm_num

/-- `adjustTry_limit`: at the start of the example, the trial step becomes 1/2. -/
example (l : Li (Fin 2)) (hl : exampleSys.li = some l) (x : St (Fin 2) Unit) : (adjustTry exampleSys exampleLim (effectiveRates l 0 examplePsi) x).dtTry = ((1 / 2 : ℝ) : WithTop ℝ) ∧ total (effectiveRates l 0 examplePsi) * (1 / 2) ≤ 1 / 2 := by
  have h : (adjustTry exampleSys exampleLim (effectiveRates l 0 examplePsi) x).dtTry = ((1 / 2 : ℝ) : WithTop ℝ) := by
    have : exampleSys.ha = none := rfl
    simp only [adjustTry, this, example_rates _ _ l hl]
    simp only [suggested, total, exampleLim]
    norm_num
  exact ⟨h, adjustTry_limit exampleSys exampleLim exampleLim_ok.1 l x 0 examplePsi (1 / 2) h⟩

/-- `step_time`, `step_inv`, `step_spec`, `reload_between_steps`, `steps_norm`: the step of the example with a rejected trial. -/
example (y : St (Fin 2) Unit) : ∃ z l, exampleSys.li = some l ∧ step exampleSys exampleLim (fun _ => 9 / 10) 0 1 1 (construct exampleSys exampleLim examplePsi () 3) = some z ∧ z.t = z.dtDid ∧ z.nRandom = 1 ∧ Inv exampleSys z ∧
    load (save z) y = z ∧ ∑ i, Complex.normSq (z.psi i) = 1 ∧
    ∃ w v, TrialFrom exampleSys l exampleLim 1 (construct exampleSys exampleLim examplePsi () 3) w ∧ coherent exampleSys 0 1 w = some v ∧ total (effectiveRates l v.t v.psi) * v.dtDid ≤ 1 := by
  obtain ⟨z, hz, -⟩ := retry_wrong_propagator
  obtain ⟨l, hl⟩ : ∃ l, exampleSys.li = some l := ⟨_, rfl⟩
  obtain ⟨h1, -, -, h4⟩ := step_time exampleSys exampleSys_wellBehaved exampleLim exampleLim_ok.1 exampleLim_ok.2 _ (fun _ => by norm_num) 0 1 1 one_pos _ z example_inv hz
  obtain ⟨w, v, v', a1, a2, -, a4, -⟩ := step_spec exampleSys exampleSys_wellBehaved l hl exampleLim exampleLim_ok.1 exampleLim_ok.2 _ 0 1 1 one_pos _ z example_inv hz
  rw [example_construct] at h1 h4
  refine ⟨z, l, hl, hz, by simpa using h1, by simpa [hl] using h4, step_inv exampleSys exampleSys_wellBehaved exampleLim exampleLim_ok.1 exampleLim_ok.2 _ (fun _ => by norm_num) 0 1 1 one_pos _ z example_inv hz,
    reload_between_steps exampleSys exampleSys_wellBehaved rfl exampleLim exampleLim_ok.1 exampleLim_ok.2 _ (fun _ => by norm_num) 0 1 1 one_pos _ z example_inv hz y,
    steps_norm exampleSys exampleSys_wellBehaved exampleLim exampleLim_ok.1 exampleLim_ok.2 examplePsi norm_examplePsi () 3 (by norm_num) (fun _ => 9 / 10) (fun _ => by norm_num) 0 1 [1] (by simp) z ?_,
    w, v, a1, a2, ?_⟩
  · simp [steps, hz]
  · refine a4.trans ?_
    norm_num [exampleLim]

/-- `first_trial_partial`: the first trial of the same step. -/
example : ∃ y, coherent exampleSys 0 1 (construct exampleSys exampleLim examplePsi () 3) = some y ∧ y.t0 = y.t := by
  have h := example_coherent 1 0 0 (1 / 2) (by norm_num) examplePsi 0 0 0 0
  rw [← example_construct] at h
  exact ⟨_, h, (first_trial_partial exampleSys _ rfl rfl 0 1 _ _ example_inv h).2⟩

/-- `reload_without_exact`: without an exact part, and a Hamiltonian part which does not depend on the time. -/
example (sample : ℕ → ℝ) (x y : St (Fin 2) Unit) : step MCWFLog.toy exampleLim sample 0 1 1 (load (save x) y) = (step MCWFLog.toy exampleLim sample 0 1 1 x).map fun y => { y with t0 := x.t } :=
  reload_without_exact MCWFLog.toy rfl (fun ha h => by simp [MCWFLog.toy] at h) exampleLim sample 0 1 1 x y

end CppQED.MCWF

namespace CppQED.Ensemble
open CppQED.QD CppQED.CMat

/-- Two state vectors of dimension two. -/
noncomputable def up : Array := ⟨[2], fun i => if i = 0 then 1 else 0⟩
noncomputable def down : Array := ⟨[2], fun i => if i = 1 then Complex.I else 0⟩

/-- `averageDensity_eq`, `averageDensity_perm`: the average of the two has the populations 1/2, in whatever order they are. -/
example (rho rho' : Array) : matrixView (averageDensity rho up [down]) 2 1 1 = 1 / 2 ∧ matrixView (averageDensity rho up [down]) 2 1 1 = matrixView (averageDensity rho' down [up]) 2 1 1 := by
  have hs : ∀ phi ∈ [down], phi.shape = up.shape := by simp [up, down]
  refine ⟨?_, averageDensity_perm rho rho' up down [down] [up] hs (List.Perm.swap _ _ _) 1 1 (by simp [up])⟩
  have h := averageDensity_eq rho up [down] hs 1 1 (by simp [up])
  have e : up.shape.prod = 2 := by simp [up]
  rw [e] at h
  rw [h]
  simp [up, down]

/-- `averageMatrix_trace`, `averageMatrix_posSemidef`, `averageMatrix_expectation`: the average is a density operator. -/
example (rho : Array) : (averageMatrix rho up [down]).trace = 1 ∧ open scoped ComplexOrder in (averageMatrix rho up [down]).PosSemidef := by
  have hs : ∀ phi ∈ [down], phi.shape = up.shape := by simp [up, down]
  refine ⟨(averageMatrix_trace rho up [down] hs).2 ?_, averageMatrix_posSemidef rho up [down] hs⟩
  intro phi h
  simp only [List.mem_cons, List.not_mem_nil, or_false] at h
  rcases h with rfl | rfl <;> simp [svNorm, frobeniusNorm, up, down, Finset.sum_range_succ]

/-- `ensemble_progress`, `ensemble_load`, `ensemble_advance`: an ensemble of three clocks. -/
example : Spec.Progress (ensemble Traj.clock) ∧ (ensemble Traj.clock).load ((ensemble Traj.clock).save ((1 : ℝ), [2, 3])) (0, [0, 0]) = (1, [2, 3]) ∧
    ∀ m ∈ ((ensemble Traj.clock).advance 2 ((1 : ℝ), [1, 1])).2, Traj.clock.time m = (ensemble Traj.clock).time ((ensemble Traj.clock).advance 2 ((1 : ℝ), [1, 1])) :=
  ⟨ensemble_progress Traj.clock Traj.clock_progress.advance_time, ensemble_load Traj.clock Traj.clock_serialised (1, [2, 3]) (0, [0, 0]) rfl,
    (ensemble_advance Traj.clock Traj.clock_progress.advance_time ((1 : ℝ), [1, 1]) 2 two_pos).2 (by simp)⟩

/-- `makeEnsemble_eq`, `makeEnsemble_nodup`, `makeEnsemble_disjoint`, `makeEnsemble_reproduce`: the streams of an ensemble of three, and of a second one. -/
example : (makeEnsemble 3 ⟨1001, 5⟩).1.Nodup ∧ (makeEnsemble 3 ⟨1001, 5⟩).1.Disjoint (makeEnsemble 2 (makeEnsemble 3 ⟨1001, 5⟩).2).1 ∧ (makeEnsemble 3 ⟨1001, 5⟩).1[2]? = some (1001, 7) := by
  refine ⟨makeEnsemble_nodup 3 _ (by norm_num [ulong]) (by norm_num [ulong]), makeEnsemble_disjoint 3 2 _ (by norm_num [ulong]) (by norm_num [ulong]), ?_⟩
  rw [makeEnsemble_reproduce 3 _ (by norm_num [ulong]) 2 (by norm_num)]
  norm_num [make, ulong]

end CppQED.Ensemble

namespace CppQED.MCWFLog
open CppQED.MCWF CppQED.Spec

/-- `record_step`, `record_increasing`, `step_summary`, `summary_of_lines`, `reload_log`, `ensemble_silent`, `ensemble_summary`: a step of the toy system in which there is a jump. -/
example : ∃ z g, steps toy exampleLim (fun _ => 1 / 4) 0 0 [1] (construct toy exampleLim examplePsi () 3 (ensembleLevel 2) 1).1 (construct toy exampleLim examplePsi () 3 (ensembleLevel 2) 1).2 = some (z, g) ∧
    (g.log.traj.map Prod.fst).Pairwise (· < ·) ∧ g.out = [] ∧ (onEnd g.log).isSome ∧ g.log.traj = [(1 / 2, 0)] ∧ (∃ g3 : Logged, g.log.traj = jumpsOf g3.out) := by
  obtain ⟨z, g, h, -, t, -⟩ := toy_step (ensembleLevel 2) (1 / 4) (by norm_num) true (by norm_num)
  obtain ⟨hL, hT⟩ := exampleLim_ok
  have hi := record_increasing toy toy_wellBehaved exampleLim hL hT _ (fun _ => by norm_num) 0 0 [1] (by simp) examplePsi norm_examplePsi () 3 (by norm_num) (ensembleLevel 2) 1 z g h
  obtain ⟨g3, st, ls, -, -, -, -, a5, -⟩ := summary_of_lines toy exampleLim hL hT _ 0 0 [1] examplePsi () 3 (ensembleLevel 2) 1 z g h
  exact ⟨z, g, h, hi.1, ensemble_silent toy exampleLim hL hT _ 0 0 [1] examplePsi () 3 2 1 z g h, (ensemble_summary toy exampleLim _ 0 0 [1] examplePsi () 3 2 1 z g h).2 (by norm_num), t, ⟨g.log, ls⟩, a5⟩

/-- A system with a Hamiltonian part only, whose stepper always succeeds. -/
noncomputable def still : Sys (Fin 2) Unit := ⟨some fun _ => ODE.gslTryStep (fun s _ _ => some s) (fun _ d => d), none, none⟩

/-- `steps_count`. -/
example : ∃ z g, steps still exampleLim (fun _ => 1 / 4) 1 0 [1, 2] (construct still exampleLim examplePsi () 3 0 1).1 (construct still exampleLim examplePsi () 3 0 1).2 = some (z, g) ∧ g.log.nSteps = 2 ∧
    z.nSteps = 2 + g.log.nToleranceOvershot := by
  have h : ∃ z g, steps still exampleLim (fun _ => 1 / 4) 1 0 [1, 2] (construct still exampleLim examplePsi () 3 0 1).1 (construct still exampleLim examplePsi () 3 0 1).2 = some (z, g) := by
    refine ⟨_, _, rfl⟩
  obtain ⟨z, g, h⟩ := h
  obtain ⟨h1, h2⟩ := steps_count still rfl exampleLim exampleLim_ok.1 exampleLim_ok.2 _ 1 0 [1, 2] examplePsi () 3 0 1 z g h
  exact ⟨z, g, h, h1, by rw [h2, h1]; rfl⟩

/-- `ensemble_average`, `summary_negative`, `summary_partial`. -/
example (g : Log) : averageOf [1, 2, 6] = .ok 3 ∧ onEnd { g with logLevel := -1 } = some (saveLog { g with logLevel := -1 }) ∧ onEnd { g with logLevel := 0 } = none := by
  refine ⟨?_, summary_negative _ (by norm_num), (summary_partial _ (by norm_num)).2 (by norm_num)⟩
  rw [ensemble_average _ (by simp)]
  norm_num

end CppQED.MCWFLog
