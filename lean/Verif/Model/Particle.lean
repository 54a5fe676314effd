import Verif.Model.Mode
import Verif.Model.FFT

/-!
# Model of the particle element

Sources: `/repo/CPPQEDelements/frees/Particle.cc`, `Particle_.h`, `/repo/CPPQEDelements/utils/ModeFunction.cc`, `ModeFunction.h`.
`ptrdiff_t` is idealised as `ℤ`, `1<<fin` as `2^fin`. The streamed parameters and frequencies (`ParticleBase`, `PumpedParticleBase`, Particle.cc:180-200) are not modelled.
-/

namespace CppQED.ParticleEl
open CppQED.Elem CppQED.Tridiag CppQED.ModeEl

/-! ## Mode functions -/

/-- `ModeFunctionType` (ModeFunction.h:9). -/
inductive MFT where
  | sin
  | cos
  | plus
  | minus
deriving DecidableEq, Repr

/-- `isComplex` (ModeFunction.h:11). -/
def isComplex (mf : MFT) : Bool := mf == .plus || mf == .minus

/-- `modeFunction` (ModeFunction.cc:39-48). -/
noncomputable def modeFunction (mf : MFT) (x : ℝ) : ℂ :=
  match mf with
  | .sin => (Real.sin x : ℂ)
  | .cos => (Real.cos x : ℂ)
  | .plus => Complex.exp (Complex.I * x)
  | .minus => Complex.exp (-Complex.I * x)

/-- `ModeFunction` (ModeFunction.h:19): the type and the wave number. -/
structure ModeFunction where
  type : MFT
  nK : ℤ

/-! ## The grids -/

/-- `Spatial::Spatial(fin,deltaK=1)` (Particle.cc:255-260): `xMax_`. -/
noncomputable def xMax : ℝ := Real.pi / 1
/-- `deltaX_`. -/
noncomputable def deltaX (fin : ℕ) : ℝ := 2 * xMax / 2 ^ fin
/-- `kMax_`. -/
noncomputable def kMax (fin : ℕ) : ℝ := Real.pi / deltaX fin
/-- `x_` with `fill` (Particle.cc:245-249). -/
noncomputable def gridX (fin i : ℕ) : ℝ := deltaX fin * i - xMax
/-- `k_`. -/
noncomputable def gridK (fin i : ℕ) : ℝ := 1 * i - kMax fin

/-! ## Operators -/

/-- `::expINKX(size_t,ptrdiff_t)` (Particle.cc:61-74). -/
noncomputable def expINKX (dim : ℕ) (nK : ℤ) : Outcome Tri :=
  let D : ℤ := dim - (if nK > 0 then nK else -nK)
  if D < 0 then .ok emptyTri
  else
    let temp := diag1 D.toNat fun _ => 1
    if nK > 0 then unary (Diag.empty 1) nK.toNat temp (Diag.empty 1) false
    else if nK = 0 then unary temp 0 (Diag.empty 1) (Diag.empty 1) false
    else unary (Diag.empty 1) (-nK).toNat (Diag.empty 1) temp false

/-- `::cosNKX(size_t,ptrdiff_t)` (Particle.cc:77-80). -/
noncomputable def cosNKX (dim : ℕ) (nK : ℤ) : Outcome Tri :=
  (expINKX dim nK).bind fun a => (expINKX dim (-nK)).bind fun b => (add a b).bind fun c => .ok (scale (1 / 2) c)

open Classical in
/-- `::hOverI` (Particle.cc:83-86). -/
noncomputable def hOverI (dim : ℕ) (vClass : ℝ) (mf : ModeFunction) : Outcome Tri :=
  if vClass ≠ 0 ∧ !isComplex mf.type then
    (cosNKX dim (2 * mf.nK)).bind fun c => .ok (scale (1 / (2 * Complex.I)) (scale ((vClass : ℂ) * (if mf.type = .sin then -1 else 1)) c))
  else .ok emptyTri

/-- `::mainDiagonal` (Particle.cc:89-92). -/
noncomputable def mainDiagonal (fin : ℕ) (omrec : ℝ) : ℕ → ℂ := fun i => Complex.I * omrec * (gridK fin i : ℂ) ^ 2

/-- `fExpFill` and `Exact::updateU` (Particle.cc:34-49). -/
noncomputable def exactDiagonal (fin : ℕ) (omrec : ℝ) (t : ℝ) (n : ℕ) : ℂ := Complex.exp (-Complex.I * omrec * (gridK fin n : ℂ) ^ 2 * t)

/-! ## The classes and the maker functions -/

/-- `particle::Pars`, `ParsPumped` (ParsParticle.h:15-42), the fields relevant here. -/
structure Pars where
  fin : ℕ
  omrec : ℝ
  vClass : ℝ
  kPart : ℕ
  modePart : MFT

/-- `Particle` (Particle.cc:204-208). -/
noncomputable def particle (p : Pars) : Outcome Element := .ok ⟨2 ^ p.fin, none, some (exactDiagonal p.fin p.omrec), true, none⟩

/-- `ParticleSch` (Particle.cc:211-216) with the second `Hamiltonian<false>` (118-123). -/
noncomputable def particleSch (p : Pars) : Outcome Element :=
  (diagonalOperator (2 ^ p.fin) (mainDiagonal p.fin (-p.omrec))).bind fun h => .ok ⟨2 ^ p.fin, some (TriHam.addContribution ⟨false, [h]⟩), none, true, none⟩

/-- `PumpedParticle` (Particle.cc:220-224) with `Hamiltonian<true>` (100-104). -/
noncomputable def pumpedParticle (p : Pars) : Outcome Element :=
  (hOverI (2 ^ p.fin) p.vClass ⟨p.modePart, p.kPart⟩).bind fun h =>
    .ok ⟨2 ^ p.fin, some (TriHam.addContribution ⟨true, [furnishWithFreqs h (mainDiagonal p.fin p.omrec)]⟩), some (exactDiagonal p.fin p.omrec), true, none⟩

/-- `PumpedParticleSch` (Particle.cc:227-232) with `Hamiltonian<false>` (107-115). -/
noncomputable def pumpedParticleSch (p : Pars) : Outcome Element :=
  (diagonalOperator (2 ^ p.fin) (mainDiagonal p.fin (-p.omrec))).bind fun h0 => (hOverI (2 ^ p.fin) p.vClass ⟨p.modePart, p.kPart⟩).bind fun h1 => (add h0 h1).bind fun h =>
    .ok ⟨2 ^ p.fin, some (TriHam.addContribution ⟨false, [h]⟩), none, true, none⟩

/-- `make(const Pars&,QM_Picture)` (Particle.cc:454-457). -/
noncomputable def make (p : Pars) (qmp : Picture) : Outcome Element := if qmp = .sch then particleSch p else particle p

/-- `makePumped` (Particle.cc:460-463). -/
noncomputable def makePumped (p : Pars) (qmp : Picture) : Outcome Element := if qmp = .sch then pumpedParticleSch p else pumpedParticle p

/-! ## Operators for a given particle -/

/-- What the operators need to know of the particle: its finesse, recoil frequency, and whether it is derived from `Exact`. -/
structure Part where
  fin : ℕ
  omrec : ℝ
  exact : Bool

/-- `particle::expINKX(Ptr,ptrdiff_t)` (Particle.cc:268-274). -/
noncomputable def expOf (p : Part) (nK : ℤ) : Outcome Tri :=
  (expINKX (2 ^ p.fin) nK).bind fun res => .ok (if p.exact then furnishWithFreqs res (mainDiagonal p.fin p.omrec) else res)

/-- `particle::sinNKX(Ptr,ptrdiff_t)` (Particle_.h:64). -/
noncomputable def sinOf (p : Part) (nK : ℤ) : Outcome Tri :=
  (expOf p nK).bind fun a => (expOf p (-nK)).bind fun b => (sub a b).bind fun c => .ok (scale (1 / (2 * Complex.I)) c)

/-- `particle::cosNKX(Ptr,ptrdiff_t)` (Particle_.h:65). -/
noncomputable def cosOf (p : Part) (nK : ℤ) : Outcome Tri :=
  (expOf p nK).bind fun a => (expOf p (-nK)).bind fun b => (add a b).bind fun c => .ok (scale (1 / 2) c)

/-- `particle::mfNKX` (Particle.cc:278-289). -/
noncomputable def mfNKX (p : Part) (mf : ModeFunction) : Outcome Tri :=
  match mf.type with
  | .sin => sinOf p mf.nK
  | .cos => cosOf p mf.nK
  | .plus => expOf p mf.nK
  | .minus => expOf p (-mf.nK)

/-- The normalisation of a travelling wave with negative wave number (Particle.cc:304-305, 306-307): the type and the wave number after the two conditionals. -/
def normalizeMF (mf : MFT) (nK : ℤ) : MFT × ℤ :=
  let (mf, nK) := if mf = .plus ∧ nK < 0 then (MFT.minus, nK * -1) else (mf, nK)
  if mf = .minus ∧ nK < 0 then (MFT.plus, nK * -1) else (mf, nK)

/-- `particle::mfComposition` (Particle.cc:309-346): the part after the normalisation, with the values of the local variables. -/
noncomputable def mfCompositionNormalized (p : Part) (sign nK : ℤ) (mf1 mf2 : MFT) : Outcome Tri :=
  (identity (2 ^ p.fin)).bind fun id =>
    if mf1 = .sin ∧ mf2 = .sin then (cosOf p (2 * nK)).bind fun c => (sub id c).bind fun r => .ok (scale (1 / 2) (scale sign r))
    else if mf1 = .cos ∧ mf2 = .cos then (cosOf p (2 * nK)).bind fun c => (add id c).bind fun r => .ok (scale (1 / 2) r)
    else if mf1 = .sin ∧ mf2 = .cos ∨ mf1 = .cos ∧ mf2 = .sin then (sinOf p (2 * nK)).bind fun s => .ok (scale (1 / 2) (scale sign s))
    else if mf1 = .plus ∧ mf2 = .plus ∨ mf1 = .minus ∧ mf2 = .minus then .ok id
    else if mf1 = .plus ∧ mf2 = .minus then expOf p (-2 * nK)
    else if mf1 = .minus ∧ mf2 = .plus then expOf p (2 * nK)
    else if mf1 = .plus ∧ mf2 = .sin ∨ mf1 = .sin ∧ mf2 = .minus then
      (expOf p (-2 * nK)).bind fun e => (sub e id).bind fun r => .ok (scale (1 / 2) (scale Complex.I (scale sign r)))
    else if mf1 = .plus ∧ mf2 = .cos ∨ mf1 = .cos ∧ mf2 = .minus then (expOf p (-2 * nK)).bind fun e => (add id e).bind fun r => .ok (scale (1 / 2) r)
    else if mf1 = .minus ∧ mf2 = .cos ∨ mf1 = .cos ∧ mf2 = .plus then (expOf p (2 * nK)).bind fun e => (add id e).bind fun r => .ok (scale (1 / 2) r)
    else if ¬(mf1 = .minus ∧ mf2 = .sin ∨ mf1 = .sin ∧ mf2 = .plus) then .throw
    else (expOf p (2 * nK)).bind fun e => (sub e id).bind fun r => .ok (scale (1 / 2) (scale Complex.I (scale (-sign) r)))

/-- `particle::mfComposition` (Particle.cc:291-347). -/
noncomputable def mfComposition (p : Part) (modeFunction1 modeFunction2 : ModeFunction) : Outcome Tri :=
  let nK1 := modeFunction1.nK
  let nK2 := modeFunction2.nK
  let nK : ℤ := |nK1|
  let sign1 : ℤ := if modeFunction1.type = .sin ∧ nK1 < 0 then -1 else 1
  let sign2 : ℤ := if modeFunction2.type = .sin ∧ nK2 < 0 then -1 else 1
  if |nK1| ≠ |nK2| then .throw
  else mfCompositionNormalized p (sign1 * sign2) nK (normalizeMF modeFunction1.type nK1).1 (normalizeMF modeFunction2.type nK2).1

/-! ## Averages -/

/-- The diagonal elements `matrixX->operator()(i)`, where `matrixX` is `ffTransform<Vector<0>>(matrix,DIR_KX)` (LazyDensityOperatorFFT.h:25-52), for the two implementations of
`LazyDensityOperator`; `none` is an exception. -/
noncomputable def transformedDiag (fin : ℕ) : Vec ⊕ Dens → Option (ℕ → ℝ)
  | .inl psi => (FFT.ffTransformCV (2 ^ fin) .kx psi).map fun phi => (LDO.ofSV (2 ^ fin) phi).diag
  | .inr rho => (FFT.ffTransformCM (2 ^ fin) .kx rho).map fun sigma => (LDO.ofDM (2 ^ fin) sigma).diag

/-- The lazy density operator. -/
noncomputable def ldo (fin : ℕ) : Vec ⊕ Dens → LDO
  | .inl psi => LDO.ofSV (2 ^ fin) psi
  | .inr rho => LDO.ofDM (2 ^ fin) rho

/-- `Averaged::average_v` (Particle.cc:140-163). -/
noncomputable def average (fin : ℕ) (state : Vec ⊕ Dens) : Option Averages :=
  (transformedDiag fin state).map fun diagX =>
    let a : Averages := (List.range (2 ^ fin)).foldl (fun (a : Averages) i =>
      let diag := (ldo fin state).diag i
      let a := a.add 0 (gridK fin i * diag)
      a.add 1 (gridK fin i ^ 2 * diag)) fun _ => 0
    (List.range (2 ^ fin)).foldl (fun (a : Averages) i =>
      let diag := diagX i
      let a := a.add 2 (gridX fin i * diag)
      a.add 3 (gridX fin i ^ 2 * diag)) a

/-- `Averaged::process_v` (Particle.cc:167-171). -/
noncomputable def process (a : Averages) : Averages :=
  let a := a.set 1 (a 1 - a 0 ^ 2)
  a.set 3 (Real.sqrt (a 3 - a 2 ^ 2))

end CppQED.ParticleEl
