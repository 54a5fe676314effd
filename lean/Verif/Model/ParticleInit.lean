import Verif.Model.Particle

/-!
# Model of the initial conditions of the particle

Sources: `/repo/CPPQEDelements/frees/Particle.cc:357-449`, `/repo/CPPQEDelements/utils/ParticleInitialCondition.h:14-33`, `/repo/CPPQEDelements/frees/ParsParticle.cc:11-28`.
A state vector is a function `ℕ → ℂ`, of which the first `2^fin` values count. The outcome `undef` stands for a state vector filled with not-a-numbers.
-/

namespace CppQED.ParticleEl
open CppQED.Elem CppQED.Tridiag

/-- `InitialCondition` (ParticleInitialCondition.h:14-33). -/
structure InitialCondition where
  x0 : ℝ
  k0 : ℝ
  sig : ℝ
  isInK : Bool

open Classical in
/-- `StateVector::renorm` (StateVector.h:148-153) of the vector of the given size. Division of a null vector by its norm gives not-a-numbers. -/
noncomputable def renormVec (size : ℕ) (psi : ℕ → ℂ) : Outcome (ℕ → ℂ) :=
  let norm := Real.sqrt (∑ n ∈ Finset.range size, Complex.normSq (psi n))
  if norm = 0 then .undef else .ok fun n => psi n / (norm : ℂ)

/-- The outcome of a transformation which may throw. -/
def ofOption {α : Type} : Option α → Outcome α
  | none => .throw
  | some a => .ok a

open Classical in
/-- `wavePacket(const InitialCondition&,const Spatial&,bool)` (Particle.cc:357-376). With zero `sig`, the real part of the exponent is minus infinity or not a number in all the points, whence the norm is zero or not a number. -/
noncomputable def wavePacket (init : InitialCondition) (fin : ℕ) (kFlag : Bool) : Outcome (ℕ → ℂ) :=
  let offset1 := Real.pi * init.x0
  let offset2 := init.k0
  let (offset1, offset2) := if init.isInK then (offset2, -offset1) else (offset1, offset2)
  let array : ℕ → ℝ := if init.isInK then gridK fin else gridX fin
  if init.sig = 0 then .undef
  else
    let psiLow : ℕ → ℂ := fun i => Complex.exp (-(array i - offset1 : ℝ) ^ 2 / (4 * init.sig ^ 2 : ℝ) + Complex.I * array i * offset2)
    let psiLow := if kFlag && !init.isInK then FFT.ffTransformCV (2 ^ fin) .xk psiLow
      else if !kFlag && init.isInK then FFT.ffTransformCV (2 ^ fin) .kx psiLow else some psiLow
    (ofOption psiLow).bind (renormVec (2 ^ fin))

/-- `boost::math::hermite(n,x)`, an external routine, represented by the recursion of its documentation (the physicists' Hermite polynomials). -/
def hermite : ℕ → ℝ → ℝ
  | 0, _ => 1
  | 1, x => 2 * x
  | n + 2, x => 2 * x * hermite (n + 1) x - 2 * (n + 1) * hermite n x

open Classical in
/-- `hoState(int,const InitialCondition&,const Spatial&,bool)` (Particle.cc:402-424). With zero `sig`, `temp` is infinite or not a number, and so is the state vector after the renormalisation. -/
noncomputable def hoState (n : ℤ) (init : InitialCondition) (fin : ℕ) (kFlag : Bool) : Outcome (ℕ → ℂ) :=
  let n := if n < 0 then 0 else n
  let kx0 := Real.pi * init.x0
  if init.sig = 0 then .undef
  else
    let psiLow : ℕ → ℂ := fun j =>
      let temp := (gridX fin j - kx0) / init.sig
      ((Real.exp (-temp ^ 2 / 2) * hermite n.toNat temp : ℝ) : ℂ)
    let psiLow := if kFlag then FFT.ffTransformCV (2 ^ fin) .xk psiLow else some psiLow
    (ofOption psiLow).bind (renormVec (2 ^ fin))

/-- `particle::Pars` and, if `vClass` is present, `ParsPumped` (ParsParticle.h:12-43): the fields relevant for the initial condition. -/
structure InitPars where
  fin : ℕ
  omrec : ℝ
  init : InitialCondition
  hoInitn : ℤ
  vClass : Option ℝ

/-- `coherent` (Particle.cc:387-390), for nonzero `vClass` (otherwise there is a division by zero, with the result of an infinite width). -/
noncomputable def coherent (omrec : ℝ) (init : InitialCondition) (vClass : ℝ) : InitialCondition :=
  ⟨init.x0, init.k0, (omrec / |vClass|) ^ (1 / 4 : ℝ) / Real.sqrt 2, false⟩

open Classical in
/-- `wavePacket(const Pars&,bool)` (379-382) and `wavePacket(const ParsPumped&,bool)` (394-400), dispatched on the type of the parameters as in `init`. -/
noncomputable def wavePacketPars (p : InitPars) (kFlag : Bool) : Outcome (ℕ → ℂ) :=
  match p.vClass with
  | none => wavePacket p.init p.fin kFlag
  | some v => if p.init.sig ≠ 0 then wavePacket p.init p.fin kFlag else wavePacket (coherent p.omrec p.init v) p.fin kFlag

open Classical in
/-- `hoState(const Pars&,bool)` (427-430) and `hoState(const ParsPumped&,bool)` (433-440). -/
noncomputable def hoStatePars (p : InitPars) (kFlag : Bool) : Outcome (ℕ → ℂ) :=
  match p.vClass with
  | none => hoState p.hoInitn p.init p.fin kFlag
  | some v => if p.init.sig ≠ 0 then hoState p.hoInitn p.init p.fin kFlag else hoState p.hoInitn (coherent p.omrec p.init v) p.fin kFlag

/-- `particle::init` (443-449). -/
noncomputable def initState (p : InitPars) : Outcome (ℕ → ℂ) := if p.hoInitn < 0 then wavePacketPars p true else hoStatePars p true

end CppQED.ParticleEl
