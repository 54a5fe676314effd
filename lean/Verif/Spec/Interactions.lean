import Verif.Spec.Mode
import Verif.Spec.Qbit
import Verif.Spec.Spin
import Verif.Spec.Particle
import Verif.Spec.Slice
import Verif.Spec.CompositePicture
import Verif.Model.Interactions

/-!
# The Hamiltonians of interacting systems

Operators of composite systems are given by their matrix elements between the multi-indices of quantum numbers. All the Hamiltonians are divided by `i`.
-/

namespace CppQED.Spec
open CppQED.Elem CppQED.ParticleEl
open ComplexConjugate

/-- The quantum number on the axis `a`. -/
def q (i : List ℤ) (a : ℕ) : ℕ := (i.getD a 0).toNat

/-- An operator of a single system. -/
def single (A : Dens) (i j : List ℤ) : ℂ := A (q i 0) (q j 0)

/-- `A⊗B`. -/
def tensor (A B : Dens) (i j : List ℤ) : ℂ := A (q i 0) (q j 0) * B (q i 1) (q j 1)

/-- `A⊗B⊗C`. -/
def tensor3 (A B C : Dens) (i j : List ℤ) : ℂ := A (q i 0) (q j 0) * B (q i 1) (q j 1) * C (q i 2) (q j 2)

/-- The identity. -/
def one : Dens := fun i j => if i = j then 1 else 0

/-- Jaynes-Cummings: `g* σ⊗a† - g σ†⊗a`. -/
noncomputable def jcH (g : ℂ) (σ σDag : Dens) (i j : List ℤ) : ℂ := conj g * tensor σ adOp i j - g * tensor σDag aOp i j

/-- The quadrature `(a+a†)/√2`. -/
noncomputable def quadOp : Dens := fun i j => (aOp i j + adOp i j) / (Real.sqrt 2 : ℂ)

/-- Coupled modes: `u n⊗x`, `u x⊗x` (real `u`), and `u* a⊗a† - u a†⊗a`. -/
noncomputable def nxH (u : ℝ) (i j : List ℤ) : ℂ := u * tensor nOp quadOp i j / Complex.I
noncomputable def xxH (u : ℝ) (i j : List ℤ) : ℂ := u * tensor quadOp quadOp i j / Complex.I
noncomputable def xxRwaH (u : ℂ) (i j : List ℤ) : ℂ := conj u * tensor aOp adOp i j - u * tensor adOp aOp i j

/-- The Dicke model: `u n⊗(S_z+S) + y (a+a†)⊗S_x`. -/
noncomputable def dickeH (u y : ℂ) (twoS : ℕ) (i j : List ℤ) : ℂ :=
  (u * tensor nOp (fun i j => sZ twoS i j + twoS / 2 * one i j) i j + y * tensor (fun i j => aOp i j + adOp i j) (sX twoS) i j) / Complex.I

/-- The particle in the cavity: `η (a⊗f + a†⊗f*)`. -/
noncomputable def interferenceH (fin : ℕ) (η : ℝ) (f : ℝ → ℂ) (i j : List ℤ) : ℂ :=
  η * (tensor aOp (multiplication fin f) i j + tensor adOp (multiplication fin fun x => conj (f x)) i j) / Complex.I

/-- The average of `|f|²` over a period, which the light shifts do not contain. -/
noncomputable def averageIntensity (mf : ModeFunction) : ℝ := match mf.type with
  | .sin => 1 / 2
  | .cos => 1 / 2
  | .plus => 1
  | .minus => 1

/-- The light shift of the cavity, in as much as it depends on the position of the particle: `U n⊗(|f|²-average)`. -/
noncomputable def lightShiftH (fin : ℕ) (U : ℝ) (mf : ModeFunction) (i j : List ℤ) : ℂ :=
  U * tensor nOp (multiplication fin fun x => Complex.normSq (waveFunction mf x) - averageIntensity mf) i j / Complex.I

/-- Coupling of two modes mediated by the particle: `g a₀⊗a₁†⊗f₀f₁* + h.c.`. -/
noncomputable def twoModesH (fin : ℕ) (g : ℂ) (f₀ f₁ : ℝ → ℂ) (i j : List ℤ) : ℂ :=
  (g * tensor3 aOp adOp (multiplication fin fun x => f₀ x * conj (f₁ x)) i j + conj g * tensor3 adOp aOp (multiplication fin fun x => conj (f₀ x) * f₁ x) i j) / Complex.I

/-- The product of two operators of a system of dimension `d`. -/
noncomputable def mul (d : ℕ) (A B : Dens) : Dens := fun i j => ∑ n ∈ Finset.range d, A i n * B n j

/-- `η a⊗f₁*f₀ + η a†⊗f₁f₀*`, where the particle operators are the products of the (truncated) matrices of the two functions. -/
noncomputable def interferenceMulH (fin : ℕ) (η : ℝ) (f₀ f₁ : ℝ → ℂ) (i j : List ℤ) : ℂ :=
  η * (tensor aOp (mul (2 ^ fin) (multiplication fin fun x => conj (f₁ x)) (multiplication fin f₀)) i j +
    tensor adOp (mul (2 ^ fin) (multiplication fin f₁) (multiplication fin fun x => conj (f₀ x))) i j) / Complex.I

/-- `g a₀⊗a₁†⊗f₁*f₀ + g* a₀†⊗a₁⊗f₁f₀*` in the same sense. -/
noncomputable def twoModesMulH (fin : ℕ) (g : ℂ) (f₀ f₁ : ℝ → ℂ) (i j : List ℤ) : ℂ :=
  (g * tensor3 aOp adOp (mul (2 ^ fin) (multiplication fin fun x => conj (f₁ x)) (multiplication fin f₀)) i j +
    conj g * tensor3 adOp aOp (mul (2 ^ fin) (multiplication fin f₁) (multiplication fin fun x => conj (f₀ x))) i j) / Complex.I

/-- The multilevel Jaynes-Cummings model: `Σ g* |k⟩⟨l|⊗a† - g |l⟩⟨k|⊗a` over the couplings `(k,l,g)`. -/
noncomputable def mljcH (gs : List (ℕ × ℕ × ℂ)) (i j : List ℤ) : ℂ :=
  (gs.map fun g => jcH g.2.2 (fun a b => if a = g.1 ∧ b = g.2.1 then 1 else 0) (fun a b => if a = g.2.1 ∧ b = g.1 then 1 else 0) i j).sum

/-! ## Dynamics -/

/-- The sum of the frequencies `ws` of the subsystems at the given quantum numbers. -/
def phaseSum (ws : List (ℕ → ℂ)) (s : List ℤ) : ℂ := (List.zipWith (fun w n => w n.toNat) ws s).sum

/-- The operator `H` in the interaction picture where the subsystems have the frequencies `ws`, at the time `τ` after the pictures coincided. -/
noncomputable def rotating (ws : List (ℕ → ℂ)) (H : List ℤ → List ℤ → ℂ) (τ : ℝ) (i j : List ℤ) : ℂ :=
  Complex.exp (phaseSum ws i * τ) * H i j * Complex.exp (-(phaseSum ws j * τ))

/-- The lower and upper bounds of arrays with the given dimensions. -/
def lower (dims : List ℕ) : List ℤ := dims.map fun _ => 0
def upper (dims : List ℕ) : List ℤ := dims.map fun d : ℕ => (d : ℤ) - 1

/-- An interaction of subsystems with the given dimensions and frequencies, which describes the Hamiltonian `H`. -/
def Couples (ia : Composite.Part) (dims : List ℕ) (ws : List (ℕ → ℂ)) (H : List ℤ → List ℤ → ℂ) : Prop :=
  ia.ex = none ∧ ∀ (t t0 : ℝ), match ia.ha with
    | none => ∀ s s', InBox (lower dims) (upper dims) s → InBox (lower dims) (upper dims) s' → H s s' = 0
    | some ha => ∀ psi dpsidt s, InBox (lower dims) (upper dims) s → ha t t0 psi dpsidt s = dpsidt s + matAction (lower dims) (upper dims) (rotating ws H (t - t0)) psi s

/-- The binary system simulates the Schrödinger equation with the (non-Hermitian) Hamiltonian divided by `i`, `H`: in the beginning of the step the pictures coincide; if the integrated array follows
the right-hand side, then the physical state vector, obtained with the exact parts, follows `dψ/dt=Hψ`. -/
def BinSimulates (b : Composite.Bin) (H : List ℤ → List ℤ → ℂ) : Prop :=
  ∀ (t0 t : ℝ) (psi : ℝ → List ℤ → ℂ), (∀ i, InBox b.lb b.ub i → HasDerivAt (fun s => psi s i) (b.addContribution t t0 (psi t) (fun _ => 0) i) t) → ∀ i, InBox b.lb b.ub i →
    b.actWithU t0 t0 (psi t0) i = psi t0 i ∧ HasDerivAt (fun s => b.actWithU s t0 (psi s) i) (matAction b.lb b.ub H (b.actWithU t t0 (psi t)) i) t

/-- The same for composites. -/
def CompSimulates (c : Composite.Comp) (H : List ℤ → List ℤ → ℂ) : Prop :=
  ∀ (t0 t : ℝ) (psi : ℝ → List ℤ → ℂ), (∀ i, InBox c.lb c.ub i → HasDerivAt (fun s => psi s i) (c.addContribution t t0 (psi t) (fun _ => 0) i) t) → ∀ i, InBox c.lb c.ub i →
    c.actWithU t0 t0 (psi t0) i = psi t0 i ∧ HasDerivAt (fun s => c.actWithU s t0 (psi s) i) (matAction c.lb c.ub H (c.actWithU t t0 (psi t)) i) t

/-- While the integrated array follows the right-hand side, the (not normalised) expectation value of the diagonal observable `Q` of the physical state does not change. With `Q=1`: the norm. -/
def BinConserves (b : Composite.Bin) (Q : List ℤ → ℝ) : Prop :=
  ∀ (t0 t : ℝ) (psi : ℝ → List ℤ → ℂ), (∀ i, InBox b.lb b.ub i → HasDerivAt (fun s => psi s i) (b.addContribution t t0 (psi t) (fun _ => 0) i) t) →
    HasDerivAt (fun s => ∑ i ∈ boxFinset b.lb b.ub, Q i * Complex.normSq (b.actWithU s t0 (psi s) i)) 0 t

/-- The same for composites. -/
def CompConserves (c : Composite.Comp) (Q : List ℤ → ℝ) : Prop :=
  ∀ (t0 t : ℝ) (psi : ℝ → List ℤ → ℂ), (∀ i, InBox c.lb c.ub i → HasDerivAt (fun s => psi s i) (c.addContribution t t0 (psi t) (fun _ => 0) i) t) →
    HasDerivAt (fun s => ∑ i ∈ boxFinset c.lb c.ub, Q i * Complex.normSq (c.actWithU s t0 (psi s) i)) 0 t

/-- While the integrated array follows the right-hand side, the norm of the physical state decreases at the total rate of the jumps `J`: `d‖ψ‖²/dt = -Σ‖Jψ‖²`. -/
def CompLoses (c : Composite.Comp) (J : List (List ℤ → List ℤ → ℂ)) : Prop :=
  ∀ (t0 t : ℝ) (psi : ℝ → List ℤ → ℂ), (∀ i, InBox c.lb c.ub i → HasDerivAt (fun s => psi s i) (c.addContribution t t0 (psi t) (fun _ => 0) i) t) →
    HasDerivAt (fun s => ∑ i ∈ boxFinset c.lb c.ub, Complex.normSq (c.actWithU s t0 (psi s) i))
      (-(J.map fun j => ∑ i ∈ boxFinset c.lb c.ub, Complex.normSq (matAction c.lb c.ub j (c.actWithU t t0 (psi t)) i)).sum) t

/-- The same for binary systems. -/
def BinLoses (b : Composite.Bin) (J : List (List ℤ → List ℤ → ℂ)) : Prop :=
  ∀ (t0 t : ℝ) (psi : ℝ → List ℤ → ℂ), (∀ i, InBox b.lb b.ub i → HasDerivAt (fun s => psi s i) (b.addContribution t t0 (psi t) (fun _ => 0) i) t) →
    HasDerivAt (fun s => ∑ i ∈ boxFinset b.lb b.ub, Complex.normSq (b.actWithU s t0 (psi s) i))
      (-(J.map fun j => ∑ i ∈ boxFinset b.lb b.ub, Complex.normSq (matAction b.lb b.ub j (b.actWithU t t0 (psi t)) i)).sum) t

/-- `H` (a Hamiltonian divided by `i`) is anti-Hermitian. -/
def AntiHermitian {ι : Type} (H : ι → ι → ℂ) : Prop := ∀ i j, conj (H j i) = -H i j

end CppQED.Spec
