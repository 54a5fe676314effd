import Verif.Model.CMatrix
import Verif.Model.MCWFRun
import Verif.Model.MCWFSystem
import Verif.Props.ODE
import Verif.Spec.Master
import Mathlib.Probability.Independence.Basic
import Mathlib.MeasureTheory.Measure.Lebesgue.Basic
import Mathlib.MeasureTheory.Integral.Bochner.Basic

/-! # What it means that quantum trajectories unravel a Master equation -/

namespace CppQED.Unravel
open MeasureTheory ProbabilityTheory Matrix
open scoped ComplexConjugate

variable {ι κ Ω : Type*} [Fintype ι] [MeasurableSpace Ω]

/-- The random numbers `sample 0, sample 1, ...` are independent and uniform in `[0,1)`. -/
structure UniformNumbers (μ : Measure Ω) (sample : ℕ → Ω → ℝ) : Prop where
  measurable : ∀ k, Measurable (sample k)
  range : ∀ k ω, sample k ω ∈ Set.Ico (0 : ℝ) 1
  uniform : ∀ k, μ.map (sample k) = volume.restrict (Set.Ico (0 : ℝ) 1)
  independent : iIndepFun sample μ

/-- The physics of the simulated system: the jump operators are `J`, and the state between two jumps follows `dψ/dt = Aψ`, with the error of the coherent part of a time step of length `τ` being of second order
in `τ`, up to the error `ετ` of the solver; this is required of steps not longer than `h`. The norm does not matter: a part of `A` which is a multiple of the identity may be missing from the simulated
Hamiltonian (as it is in the elements with phase noise), which is the positive factor `s`. With an exact part (interaction picture), this is meant for steps beginning at the reference time of the interaction picture. -/
structure Follows (S : MCWF.Sys ι κ) (A : Matrix ι ι ℂ) (J : List (Matrix ι ι ℂ)) (c ε h : ℝ) : Prop where
  jumps : ∃ l, S.li = some l ∧ ∀ t psi, (l.rates t psi).length = J.length ∧ ∀ (i : ℕ) (h : i < J.length), l.actWithJ t psi i = J[i] *ᵥ psi
  coherent : ∀ (fuel : ℕ) (Dt : ℝ) (x y : MCWF.St ι κ), 0 < Dt → MCWF.norm x.psi = 1 → (S.ex.isSome → x.t0 = x.t) → MCWF.evolve S fuel Dt x = some y → 0 < y.dtDid → y.dtDid ≤ h →
    ∃ s : ℝ, 0 < s ∧ ∀ i, ‖s * (MCWF.exact S y).psi i - (x.psi i + y.dtDid * (A *ᵥ x.psi) i)‖ ≤ c * y.dtDid ^ 2 + ε * y.dtDid

/-- The controlled stepper solves `dψ/dt=f(t,ψ)` from normalised states with an error of at most `ε` times the length of the step (in each element). -/
def Accurate (stepper : ODE.Stepper (ι → ℂ) κ) (f : ℝ → (ι → ℂ) → ι → ℂ) (ε : ℝ) : Prop :=
  ∀ (k : κ) (s : ι → ℂ) (t d : ℝ), 0 < d → MCWF.norm s = 1 → (stepper k s t d).1.success = true →
    ∀ φ : ℝ → ι → ℂ, φ t = s → (∀ r, t ≤ r → r ≤ t + d → ∀ i, HasDerivAt (fun r => φ r i) (f r (φ r) i) r) → ∀ i, ‖(stepper k s t d).1.state i - φ (t + d) i‖ ≤ ε * d

/-- What is supposed of the stepper made for the derivative `f`: it is a controlled stepper, it does not make the state vanish, and it is accurate. -/
structure GoodStepper (stepper : ODE.Stepper (ι → ℂ) κ) (f : ℝ → (ι → ℂ) → ι → ℂ) (ε : ℝ) : Prop where
  controlled : ODE.Controlled stepper
  nonzero : ∀ k s t d, s ≠ 0 → (stepper k s t d).1.success = true → (stepper k s t d).1.state ≠ 0
  accurate : Accurate stepper f ε

/-- The element `i,j` of `|ψ⟩⟨ψ|` of the trajectory, if it is there. -/
noncomputable def dyad (x : Option (MCWF.St ι κ)) (i j : ι) : ℂ :=
  match x with
  | some x => x.psi i * conj (x.psi j)
  | none => 0

/-- The array of the state vector of the trajectory, if it is there. -/
noncomputable def finalArray (shape : List ℕ) {n : ℕ} (x : Option (MCWF.St (Fin n) κ)) : CMat.Array :=
  ⟨shape, fun o => if h : o < n then (match x with | some x => x.psi ⟨o, h⟩ | none => 0) else 0⟩

/-- A solution of the Master equation on `[0,T]`. -/
def Solves (A : Matrix ι ι ℂ) (J : List (Matrix ι ι ℂ)) (T : ℝ) (ρ : ℝ → Matrix ι ι ℂ) : Prop :=
  ∀ t, 0 ≤ t → t ≤ T → ∀ i j, HasDerivAt (fun s => ρ s i j) (Spec.lindblad A J (ρ t) i j) t

/-- There are trajectories as required below: there is a stepper without error such that the trajectories arrive at any time `T` with whatever random numbers, in as many intervals of length `Dt` as needed, if `Dt` is
short enough compared to the limit on the jump probability. -/
def Attained.{v} {n : ℕ} (S : Master.Sys n) (rates : ℝ → (Fin n → ℂ) → List ℝ) : Prop :=
  ∃ (Γ : ℝ) (κ : Type v) (make : (ℝ → (Fin n → ℂ) → Fin n → ℂ) → ODE.Stepper (Fin n → ℂ) κ), 0 ≤ Γ ∧ Nonempty κ ∧ (S.ha.isSome → ∀ t0, GoodStepper (make (S.rhs t0)) (S.rhs t0) 0) ∧
    ∀ (L : MCWF.Lim) (Dt T : ℝ), 0 < Dt → Dt ≤ 1 → 0 < L.dpLimit → 1 ≤ L.overshootTolerance → Γ * Dt ≤ L.dpLimit →
      ∀ (psi : Fin n → ℂ) (ces : κ) (dtInit : ℝ), MCWF.norm psi = 1 → Dt ≤ dtInit → ∀ fuel m k : ℕ, 0 < fuel → T ≤ k * Dt → ∀ s : ℕ → ℝ, (∀ k, 0 ≤ s k ∧ s k < 1) →
        (MCWF.runTo (S.toMCWF make rates) L s fuel m 1 T Dt k (MCWF.construct (S.toMCWF make rates) L psi ces dtInit)).isSome

/-- The Monte Carlo trajectories of the system `S`, with the given `rates`, unravel the Master equation of the (non-Hermitian) Hamiltonian divided by `i`, `A`, and the jump operators `J`: run to any time `T` by an accurate
stepper, the mean over the random numbers of `|ψ⟩⟨ψ|` is the solution of the Master equation up to an error proportional to the longest allowed step `Dt` and to the error `ε` of the stepper. The constant `C` depends on
the system and `T` only: not on the initial condition, the stepper, the limits on the jump probability, and the random numbers. If there is an exact part, `Dt` must be so short that no step need be repeated because of the
jump probability being too large (cf. C63). The trajectories must arrive at `T` with whatever random numbers (in `k` calls of `advance`, each using not more than `N` steps, each of these with at most
`fuel` trials of the stepper and `m` step-backs). The second clause shows that there are such trajectories. The third one is that the trajectories end exactly at `T`, in a state of norm one. -/
structure Unravels.{v, w} {n : ℕ} (S : Master.Sys n) (rates : ℝ → (Fin n → ℂ) → List ℝ) (A : Matrix (Fin n) (Fin n) ℂ) (J : List (Matrix (Fin n) (Fin n) ℂ)) : Prop where
  mean :
    ∀ T : ℝ, 0 ≤ T →
      ∃ C Γ, 0 ≤ C ∧ 0 ≤ Γ ∧ ∀ {κ : Type v} {Ω : Type w} [MeasurableSpace Ω] (μ : Measure Ω) [IsProbabilityMeasure μ] (sample : ℕ → Ω → ℝ), UniformNumbers μ sample →
        ∀ (make : (ℝ → (Fin n → ℂ) → Fin n → ℂ) → ODE.Stepper (Fin n → ℂ) κ) (L : MCWF.Lim) (ε Dt : ℝ),
        (S.ha.isSome → ∀ t0, GoodStepper (make (S.rhs t0)) (S.rhs t0) ε) → 0 ≤ ε → ε ≤ 1 → 0 < Dt → Dt ≤ 1 →
        0 < L.dpLimit → 1 ≤ L.overshootTolerance → L.overshootTolerance * L.dpLimit ≤ 1 → (S.ex.isSome → Γ * Dt ≤ L.overshootTolerance * L.dpLimit) →
        ∀ (psi : Fin n → ℂ) (ces : κ) (dtInit : ℝ), MCWF.norm psi = 1 → 0 < dtInit →
        ∀ (fuel m N k : ℕ), (∀ s : ℕ → ℝ, (∀ k, 0 ≤ s k ∧ s k < 1) →
          (MCWF.runTo (S.toMCWF make rates) L s fuel m N T Dt k (MCWF.construct (S.toMCWF make rates) L psi ces dtInit)).isSome) →
        ∀ (ρ : ℝ → Matrix (Fin n) (Fin n) ℂ), Solves A J T ρ → ρ 0 = vecMulVec psi (star psi) →
        ∀ i j, ‖(∫ ω, dyad (MCWF.runTo (S.toMCWF make rates) L (fun k => sample k ω) fuel m N T Dt k (MCWF.construct (S.toMCWF make rates) L psi ces dtInit)) i j ∂μ) - ρ T i j‖ ≤ C * (Dt + ε)
  attained : Attained.{v} S rates
  normalised :
    ∀ {κ : Type v} (make : (ℝ → (Fin n → ℂ) → Fin n → ℂ) → ODE.Stepper (Fin n → ℂ) κ) (L : MCWF.Lim) (ε Dt T : ℝ), (S.ha.isSome → ∀ t0, GoodStepper (make (S.rhs t0)) (S.rhs t0) ε) → 0 < Dt →
      0 < L.dpLimit → 1 ≤ L.overshootTolerance → 0 ≤ T → ∀ (psi : Fin n → ℂ) (ces : κ) (dtInit : ℝ), MCWF.norm psi = 1 → 0 < dtInit →
      ∀ (fuel m N k : ℕ) (s : ℕ → ℝ), (∀ k, 0 ≤ s k ∧ s k < 1) →
      ∀ x, MCWF.runTo (S.toMCWF make rates) L s fuel m N T Dt k (MCWF.construct (S.toMCWF make rates) L psi ces dtInit) = some x → x.t = T ∧ MCWF.norm x.psi = 1

end CppQED.Unravel
