import Verif.Lemmas.Simulated
import Verif.Model.DDHO
import Verif.Props.DDHO

/-!
# Trajectories of ordinary differential equations: C120
-/

namespace CppQED.Simulated
open CppQED.Tridiag

variable {n : ℕ}

/-! ## Columns and keys -/

section columns
variable {E κ : Type*}

theorem run_labels (solver : (ℝ → (Fin n → E) → Fin n → E) → ODE.Stepper (Fin n → E) κ) (f : ℝ → (Fin n → E) → Fin n → E) (fuel N : ℕ) (T Dt : ℝ) (m : ℕ) (x y : St n E κ) (h : runTo solver f fuel N T Dt m x = some y) :
    y.labels = x.labels := by
  have hstep : ∀ d (a b : St n E κ), step solver f fuel d a = some b → b.labels = a.labels := by
    intro d a b hab
    unfold step at hab
    obtain ⟨r, -, h2⟩ := Option.map_eq_some_iff.1 hab
    subst h2; rfl
  have hadv : ∀ (N : ℕ) e (a b : St n E κ), advanceLoop solver f fuel e N a = some b → b.labels = a.labels := by
    intro N e
    induction N with
    | zero =>
      intro a b hab
      unfold advanceLoop at hab
      split_ifs at hab
      injection hab with hab; rw [hab]
    | succ N ih =>
      intro a b hab
      unfold advanceLoop at hab
      split_ifs at hab
      · injection hab with hab; rw [hab]
      · obtain ⟨z, hz, hzb⟩ := Option.bind_eq_some_iff.1 hab
        rw [ih z b hzb, hstep _ a z hz]
  induction m generalizing x with
  | zero =>
    unfold runTo at h
    split_ifs at h
    injection h with h; rw [h]
  | succ m ih =>
    unfold runTo at h
    split_ifs at h
    · obtain ⟨z, hz, hzb⟩ := Option.bind_eq_some_iff.1 h
      rw [ih z hzb, hadv N _ x z hz]
    · injection h with h; rw [h]

/-- **C120.** Construction fails exactly if there are more labels than values. -/
theorem make_throws (s : Fin n → E) (labels : List String) (ode : ODE.Engine κ) : (make s labels ode = .throw ↔ n < labels.length) ∧ (labels.length ≤ n → ∃ x, make s labels ode = .ok x ∧ x.t = 0 ∧ x.state = s ∧ x.ode = ode) := by
  unfold make
  constructor
  · split_ifs with h1 h2 <;> simp <;> omega
  · intro h
    split_ifs with h1 h2
    · exact ⟨_, rfl, rfl, rfl, rfl⟩
    · omega
    · exact ⟨_, rfl, rfl, rfl, rfl⟩

/-- **C120.** At any time of the run, the lines of the key are numbered consecutively from one, and there are as many of them as columns; the first two columns are the time and the last timestep, and the values come after them
in their order, each under its own label, and those without a label under "N/A". -/
theorem columns_match (solver : (ℝ → (Fin n → E) → Fin n → E) → ODE.Stepper (Fin n → E) κ) (f : ℝ → (Fin n → E) → Fin n → E) (labels : List String) (ces : κ) (dtInit : ℝ) (fuel N m : ℕ) (T Dt : ℝ) (s : Fin n → E) (x : St n E κ)
    (h : simulate solver f labels ces dtInit fuel N m T Dt s = some x) :
    (key x).length = (row x).length ∧ (key x).map Prod.fst = List.range' 1 (n + 2) ∧ (row x)[0]? = some (.time x.t) ∧ (key x)[0]? = some (1, "time") ∧ (row x)[1]? = some (.dtDid x.ode.dtDid) ∧ (key x)[1]? = some (2, "dtDid") ∧
      ∀ i : Fin n, (row x)[2 + (i : ℕ)]? = some (.value (x.state i)) ∧ (key x)[2 + (i : ℕ)]? = some (3 + (i : ℕ), labels.getD i "N/A") := by
  have hl : x.labels.length = n ∧ ∀ i < n, x.labels[i]? = some (labels.getD i "N/A") := by
    unfold simulate make at h
    by_cases h1 : labels.length < n
    · rw [if_pos h1] at h
      rw [run_labels solver f fuel N T Dt m _ x h]
      refine ⟨by simp; omega, fun i hi => ?_⟩
      simp only [List.getElem?_append, List.getD_eq_getElem?_getD]
      split_ifs with h3
      · rw [List.getElem?_eq_getElem h3]; rfl
      · rw [List.getElem?_replicate, if_pos (by omega), List.getElem?_eq_none (by omega)]; rfl
    · rw [if_neg h1] at h
      by_cases h2 : labels.length > n
      · rw [if_pos h2] at h
        exact absurd h (by simp)
      · rw [if_neg h2] at h
        rw [run_labels solver f fuel N T Dt m _ x h]
        refine ⟨by simp only; omega, fun i hi => ?_⟩
        simp only [List.getD_eq_getElem?_getD]
        rw [List.getElem?_eq_getElem (by omega)]; rfl
  have hv : ((List.range n).filterMap fun i => if h : i < n then some (Column.value (x.state ⟨i, h⟩)) else none) = List.ofFn fun i : Fin n => Column.value (x.state i) := by
    have e : ∀ i ∈ List.range n, (if h : i < n then some (Column.value (x.state ⟨i, h⟩)) else none) = some (if h : i < n then Column.value (x.state ⟨i, h⟩) else .time 0) := by
      intro i hi
      rw [dif_pos (List.mem_range.1 hi), dif_pos (List.mem_range.1 hi)]
    rw [List.filterMap_congr e, show (fun i => some (if h : i < n then Column.value (x.state ⟨i, h⟩) else .time 0)) = some ∘ fun i => (if h : i < n then Column.value (x.state ⟨i, h⟩) else .time 0) from rfl,
      List.filterMap_eq_map]
    apply List.ext_getElem
    · simp
    · intro i h1 h2
      simp at h1
      simp [h1]
  refine ⟨?_, ?_, rfl, rfl, rfl, rfl, fun i => ⟨?_, ?_⟩⟩
  · unfold key row
    rw [hv]
    simp [hl.1]
  · unfold key
    apply List.ext_getElem
    · simp [hl.1]
    · intro k h1 h2
      rcases k with _ | _ | k
      · simp
      · simp
      · simp
        omega
  · unfold row
    rw [hv, List.getElem?_append_right (by simp)]
    simp
  · unfold key
    rw [List.getElem?_append_right (by simp)]
    simp [hl.2 i i.2]

/-- **C120.** What is written in the state file determines the continuation: a trajectory made with the same labels, and read back from the state file is the same as the one saved, whatever it was before. -/
theorem resume (x y : St n E κ) (hl : y.labels = x.labels) : load (save x) y = x := by
  cases x; cases y; simp only at hl; subst hl; rfl

end columns

/-! ## Integration -/

section integration
variable {E : Type} [NormedAddCommGroup E] [NormedSpace ℝ E]

/-- **C120.** Trajectories of Lipschitz-continuous equations that have solutions for all times. -/
theorem integrates.{v} {K : NNReal} (f : ℝ → (Fin n → E) → Fin n → E) (hK : ∀ t, LipschitzWith K (f t)) (hflow : HasFlow f) : Integrates.{v} f where
  error T hT y hy := by
    have hc : ContinuousOn y (Set.Icc 0 T) := fun s hs => (hy s hs.1 hs.2).continuousAt.continuousWithinAt
    obtain ⟨M, hM⟩ := isCompact_Icc.exists_bound_of_continuousOn hc
    have hM' : ∀ t, 0 ≤ t → t ≤ T → ‖y t‖ ≤ |M| := fun t h0 h1 => (hM t ⟨h0, h1⟩).trans (le_abs_self _)
    refine ⟨(1 + |M|) * (T * Real.exp ((K + 1) * T)), by positivity, ?_⟩
    intro κ solver ε Dt hs hε hε1 hD labels ces dtInit hdt fuel N m x hx
    have hrun : ∃ x0 : St n E κ, x0.t = 0 ∧ x0.state = y 0 ∧ 0 < x0.ode.dtTry ∧ runTo solver f fuel N T Dt m x0 = some x := by
      unfold simulate at hx
      by_cases hl : labels.length ≤ n
      · obtain ⟨x0, e1, e2, e3, e4⟩ := (make_throws (y 0) labels (⟨ces, 0, dtInit, 0, 0⟩ : ODE.Engine κ)).2 hl
        rw [e1] at hx
        exact ⟨x0, e2, e3, by rw [e4]; exact hdt, hx⟩
      · rw [((make_throws (y 0) labels (⟨ces, 0, dtInit, 0, 0⟩ : ODE.Engine κ)).1).2 (by omega)] at hx
        exact absurd hx (by simp)
    obtain ⟨x0, b1, b2, b3, b4⟩ := hrun
    have hnear : Near y |M| (K + 1) ε x0 := ⟨b1.ge, b3, by rw [b2, b1, sub_self, norm_zero, zero_mul, mul_zero]⟩
    obtain ⟨p1, p2⟩ := run_invariant solver f fuel N T Dt hD (Near y |M| (K + 1) ε) (fun a b d ha hd h0 hab => near_step hK hflow solver ε hs hε hε1 hy (abs_nonneg _) hM' fuel d h0 a b ha hd hab) m x0 x hnear
      (by rw [b1]; exact hT) b4
    refine ⟨p2, ?_⟩
    have := p1.error
    rw [p2] at this
    linarith
  attained := by
    choose flow hflow' using hflow
    refine ⟨PUnit, fun _ => exactStepper.{v} flow, ⟨⟨⟩⟩, exactStepper_good hK flow hflow', fun Dt T hD hD1 s labels hl ces dtInit hdt fuel m hf hm => ?_⟩
    unfold simulate
    obtain ⟨x0, e1, e2, e3, e4⟩ := (make_throws s labels (⟨ces, 0, dtInit, 0, 0⟩ : ODE.Engine PUnit.{v + 1})).2 hl
    rw [e1]
    exact exact_run flow f fuel hf T Dt hD hD1 m x0 (by rw [e4]; exact hdt) (by rw [e2]; simpa using hm)

/-- **C120.** Trajectories of linear inhomogeneous equations. -/
theorem affine_integrates.{v} [FiniteDimensional ℝ E] (A : (Fin n → E) →L[ℝ] Fin n → E) (b : ℝ → Fin n → E) (hb : Continuous b) (f : ℝ → (Fin n → E) → Fin n → E) (hf : ∀ t y, f t y = A y + b t) : Integrates.{v} f := by
  refine integrates (K := ‖A‖₊) f (fun t => ?_) (affine_hasFlow A b hb f hf)
  have : f t = fun y => A y + b t := funext fun y => hf t y
  rw [this]
  intro u w
  have := A.lipschitz u w
  simpa [edist_add_right] using this

end integration

/-! ## Concrete cases -/

/-- Two values with one label: the second is labelled "N/A". -/
example : (make ![(1 : ℝ), 2] ["x"] (⟨(), 0, 1, 0, 0⟩ : ODE.Engine Unit)) = .ok ⟨0, ![1, 2], ["x", "N/A"], ⟨(), 0, 1, 0, 0⟩⟩ := by
  simp [make]

example : (make ![(1 : ℝ), 2] ["x", "y", "z"] (⟨(), 0, 1, 0, 0⟩ : ODE.Engine Unit)) = .throw := by
  simp [make]

/-- The damped equation `dy/dt=-y+t` in two components, of which the second is without a label: the trajectory arrives at time 2, with the columns as stated. -/
example : ∃ (κ : Type) (x : St 2 ℝ κ), (∃ solver ces, simulate solver (fun t y => -y + fun _ => t) ["x"] ces 1 1 1 4 2 (1 / 2) ![1, 3] = some x ∧ GoodSolver (solver fun t y => -y + fun _ => t) (fun t y => -y + fun _ => t) 0) ∧
    (key x).length = 4 ∧ (key x)[3]? = some (4, "N/A") := by
  have h := affine_integrates.{0} (n := 2) (E := ℝ) (-ContinuousLinearMap.id ℝ _) (fun t _ => t) (continuous_pi fun _ => continuous_id) (fun t y => -y + fun _ => t) fun t y => by simp
  obtain ⟨κ, solver, ⟨ces⟩, hg, hr⟩ := h.attained
  have := hr (1 / 2) 2 (by norm_num) (by norm_num) ![1, 3] ["x"] (by simp) ces 1 (by norm_num) 1 4 one_pos (by norm_num)
  obtain ⟨x, hx⟩ := Option.isSome_iff_exists.1 this
  have hc := columns_match _ _ _ _ _ _ _ _ _ _ _ _ hx
  refine ⟨κ, x, ⟨solver, ces, hx, hg⟩, ?_, ?_⟩
  · have := congrArg List.length hc.2.1
    simpa using this
  · simpa using (hc.2.2.2.2.2.2 1).2

end CppQED.Simulated
