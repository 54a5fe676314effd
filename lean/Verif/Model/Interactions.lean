import Verif.Model.Composite
import Verif.Model.Qbit
import Verif.Model.Spin
import Verif.Model.Particle
import Verif.Model.Sigma

/-!
# Model of the interaction elements, and of elements as components of composite systems

Sources: `/repo/CPPQEDelements/interactions/JaynesCummings_.h`, `JaynesCummings.cc`, `CoupledModes.h`, `CoupledModes.cc`, `GeneralDicke.cc`, `MLJC.h`, `ParticleCavity.cc`, `ParticleCavity_.h`,
`ParticleTwoModes.cc`, `/repo/CPPQEDcore/quantumoperator/TridiagonalHamiltonian.h`. The streamed parameters and the frequencies (`RF`, `CF`), and the averages which can be mixed in are not modelled.
-/

namespace CppQED.Interactions
open CppQED.Elem CppQED.Tridiag CppQED.ModeEl
open CppQED.MII (Idx)
open CppQED.Slice (Arr)
open ComplexConjugate

/-! ## Elements in composite systems

Free elements have been modelled with arrays indexed by natural numbers, tridiagonals with arrays indexed by lists of natural numbers, composite systems with arrays indexed by lists of integers
(their bounds being `0` and `dim-1`). -/

/-- The index of an array of a composite system. -/
def up (n : NIdx) : Idx := n.map Int.ofNat

/-- The index of an array in a tridiagonal. -/
def down (i : Idx) : NIdx := i.map Int.toNat

/-- A free element as component. An error in a jump leaves the array unchanged. The averages are not carried over; the trace which occurs in the rates is calculated as that of a density operator. -/
noncomputable def freePart (e : Element) : Composite.Part where
  axes := [0]
  ex := e.ex.map fun U t t0 psi i => psi i * U (t - t0) (i.getD 0 0).toNat
  applicable := e.exApplicable
  ha := e.ha.map fun f t t0 psi dpsidt i => f t (fun n => psi [(n : ℤ)]) (fun n => dpsidt [(n : ℤ)]) t0 (i.getD 0 0).toNat
  li := e.li.map fun L =>
    { nAvr := L.labels.length
      streamKey := Composite.keyPrinter "" L.labels
      average := fun _ m => L.rates (LDO.ofDM e.dim fun a b => m [(a : ℤ)] [(b : ℤ)])
      actWithJ := fun _ i psi => match L.actWithJ i (fun n => psi [(n : ℤ)]) with
        | .ok psi => fun i => psi (i.getD 0 0).toNat
        | .error _ => psi
      actWithSuperoperator := fun _ i rho drhodt => match L.actWithSuperoperator i (fun a b => rho [(a : ℤ), (b : ℤ)]) (fun a b => drhodt [(a : ℤ), (b : ℤ)]) with
        | .ok d => fun i => d (i.getD 0 0).toNat (i.getD 1 0).toNat
        | .error _ => drhodt }
  av := none

/-- `TridiagonalHamiltonian<RANK,true>::addContribution_v` (TridiagonalHamiltonian.h:42-47). -/
noncomputable def triHam (hOverIs : List Tri) (t t0 : ℝ) (psi dpsidt : Arr ℂ) : Arr ℂ := fun i =>
  hOverIs.foldl (fun d h => Tridiag.apply (propagate h (t - t0)) (fun n => psi (up n)) d) (fun n => dpsidt (up n)) (down i)

/-- An interaction element with Hamiltonian part on the given axes. -/
def interaction (axes : List ℕ) (ha : Option (ℝ → ℝ → Arr ℂ → Arr ℂ → Arr ℂ)) : Composite.Part := ⟨axes, none, true, ha, none, none⟩

/-- A binary system of two free elements and an interaction; the arrays of a state have the bounds `0` and `dim-1`. -/
noncomputable def binary (e0 e1 : Element) (ia : Composite.Part) : Composite.Bin :=
  ⟨[0, 0], [(e0.dim : ℤ) - 1, (e1.dim : ℤ) - 1], freePart e0, freePart e1, ia⟩

/-- A composite system of free elements and interactions. -/
noncomputable def composite (es : List Element) (acts : List Composite.Part) : Composite.Comp :=
  ⟨es.length, es.map fun _ => 0, es.map fun e => (e.dim : ℤ) - 1, es.map freePart, acts⟩

/-! ## What the interactions need to know of the free elements -/

/-- `mode::Ptr`: the dimension, and what is found by the `dynamic_cast` to `mode::Exact` (Mode.cc:292): `zI` and `omegaKerr`. -/
structure ModePtr where
  dim : ℕ
  exact : Option (ℂ × ℝ)

open Classical in
/-- The `mode::Exact` base of what is made by `make(const ParsPumpedLossy&,QM_Picture)` (`ModeEl.makePumpedLossy`). -/
noncomputable def modePtr (p : ModeEl.Pars) : Picture → ModePtr
  | .ip => ⟨p.cutoff, some (⟨if p.kappa = 0 then 0 else finiteTemperatureHamiltonianDecay (decide (p.nTh ≠ 0)) p, -p.delta⟩, p.omegaKerr)⟩
  | .uip => ⟨p.cutoff, some (⟨0, -p.delta⟩, p.omegaKerr)⟩
  | .sch => ⟨p.cutoff, none⟩

/-- The same for `qbit::make(const ParsPumpedLossy&,QM_Picture)` (`QbitEl.make`); `qbit::Ptr` converts to `mode::Ptr`. -/
noncomputable def qbitPtr (p : QbitEl.Pars) : Picture → ModePtr
  | .ip => ⟨2, some (⟨p.gamma, -p.delta⟩, 0)⟩
  | .uip => ⟨2, some (⟨0, -p.delta⟩, 0)⟩
  | .sch => ⟨2, none⟩

/-- The same for `qbit::make(const ParsPumpedLossyPhaseNoise&,QM_Picture)` (`QbitEl.makePhaseNoise`). -/
noncomputable def qbitPtrPhaseNoise (p : QbitEl.Pars) (qmp : Picture) : ModePtr :=
  open Classical in
  if p.gammaParallel ≠ 0 then (if qmp = .uip then qbitPtr p .uip else qbitPtr p .ip) else qbitPtr p qmp

/-- `spin::Ptr`: dimension, `twoS`, `z`, and whether it is derived from `FreeExact` (Spin.cc:70). -/
structure SpinPtr where
  dim : ℕ
  twoS : ℕ
  z : ℂ
  exact : Bool

/-- `Spin` or `LossySpin` (`SpinEl.spin`) and `SpinSch` or `LossySpinSch` (`SpinEl.spinSch`). -/
def spinPtr (p : SpinEl.Pars) (exact : Bool) : SpinPtr := ⟨p.dimension, p.twoS, p.z, exact⟩

/-- `mode::aop(Ptr)` (Mode.cc:288-294). -/
noncomputable def aop (m : ModePtr) : Outcome Tri := ModeEl.aopOf m.dim m.exact

/-- `mode::nop(Ptr)` (Mode.cc:298-301). -/
noncomputable def nop (m : ModePtr) : Outcome Tri := ModeEl.nop m.dim

/-- `mode::xop(Ptr)` (Mode_.h:38). -/
noncomputable def xop (m : ModePtr) : Outcome Tri := (aop m).bind fun a => (plusHC a).bind fun x => .ok (scale (1 / (Real.sqrt 2 : ℂ)) x)

/-- `spin::splus(Ptr)` (Spin.cc:70, 43-52), with `mainDiagonal` (35-40). -/
noncomputable def splus (s : SpinPtr) : Outcome Tri :=
  (SpinEl.splus s.dim s.twoS).bind fun sp => .ok (if s.exact then furnishWithFreqs sp (fun i => s.z * ((i : ℂ) - s.twoS / 2)) else sp)

/-- `spin::sminus(Ptr)` (Spin.h:42). -/
noncomputable def sminus (s : SpinPtr) : Outcome Tri := (splus s).bind fun sp => .ok (hermitianConjugate sp)

/-- `spin::sx(Ptr)` (Spin.h:43). -/
noncomputable def sx (s : SpinPtr) : Outcome Tri := (splus s).bind fun sp => (sminus s).bind fun sm => (add sp sm).bind fun x => .ok (scale (1 / 2) x)

/-- `tridiagPlusHC_overI` (Tridiagonal.h:345-348). -/
noncomputable def plusHC_overI (T : Tri) : Outcome Tri := (plusHC T).bind fun R => .ok (scale (1 / Complex.I) R)

/-! ## Jaynes-Cummings -/

/-- `jaynescummings::Base<true>` (JaynesCummings_.h:61-64); `sigma` is `sigmaop(qbit)`, that is, `aop`, or `sigmaop(spin)`, that is, `sminus` (JaynesCummings.cc:16-19). -/
noncomputable def jaynesCummingsH (sigma : Outcome Tri) (mode : ModePtr) (g : ℂ) : Outcome Tri :=
  sigma.bind fun s => (aop mode).bind fun a => (product (scale (conj g) s) (hermitianConjugate a)).bind minusHC

open Classical in
/-- `jaynescummings::make` (JaynesCummings_.h:87-92). -/
noncomputable def jaynesCummings (axes : List ℕ) (sigma : Outcome Tri) (mode : ModePtr) (g : ℂ) : Outcome Composite.Part :=
  if g ≠ 0 then (jaynesCummingsH sigma mode g).bind fun h => .ok (interaction axes (some (triHam [h]))) else .ok (interaction axes none)

/-! ## Coupled modes -/

/-- `coupledmodes::Coupling` (CoupledModes.h:14-18). -/
inductive Coupling where
  | nx
  | xx
  | xxRWA

/-- `coupledmodes::Base<true,C>` (CoupledModes.cc:20-41). -/
noncomputable def coupledModesH (c : Coupling) (m1 m2 : ModePtr) (u : ℂ) : Outcome Tri :=
  match c with
  | .nx => (nop m1).bind fun n => (xop m2).bind fun x => (product (scale (u.re : ℂ) n) x).bind fun P => .ok (scale (1 / Complex.I) P)
  | .xx => (xop m1).bind fun n => (xop m2).bind fun x => (product (scale (u.re : ℂ) n) x).bind fun P => .ok (scale (1 / Complex.I) P)
  | .xxRWA => (aop m1).bind fun a => (aop m2).bind fun b => (product (scale (conj u) a) (hermitianConjugate b)).bind minusHC

open Classical in
/-- `coupledmodes::make` (CoupledModes.h:63-68). -/
noncomputable def coupledModes (axes : List ℕ) (c : Coupling) (m1 m2 : ModePtr) (u : ℂ) : Outcome Composite.Part :=
  if u ≠ 0 then (coupledModesH c m1 m2 u).bind fun h => .ok (interaction axes (some (triHam [h]))) else .ok (interaction axes none)

/-! ## The Dicke model -/

/-- `generaldicke::Base` (GeneralDicke.cc:14-22). -/
noncomputable def generalDickeH (mode : ModePtr) (spin : SpinPtr) (u y : ℂ) : Outcome Tri :=
  (nop mode).bind fun n => (SpinEl.sz spin.dim spin.twoS).bind fun z => (identity spin.dim).bind fun id =>
    (add z (scale ((spin.twoS : ℂ) / 2) id)).bind fun zs => (product (scale u n) zs).bind fun A =>
      (aop mode).bind fun a => (add (hermitianConjugate a) a).bind fun x => (sx spin).bind fun s => (product (scale y x) s).bind fun B =>
        (add A B).bind fun H => .ok (scale (1 / Complex.I) H)

/-- The element. -/
noncomputable def generalDicke (axes : List ℕ) (mode : ModePtr) (spin : SpinPtr) (u y : ℂ) : Outcome Composite.Part :=
  (generalDickeH mode spin u y).bind fun h => .ok (interaction axes (some (triHam [h])))

/-! ## The multilevel Jaynes-Cummings model -/

/-- `mljc::Base::addContribution_v` (MLJC.h:43-60) for the list of couplings: the two levels of each (`pair_c<N1,N2>`), and `a`, `adagger` of `ModeDynamics` (62-74). -/
noncomputable def mljcHam (mds : List (ℕ × ℕ × Tri × Tri)) (t t0 : ℝ) (psi dpsidt : Arr ℂ) : Arr ℂ := fun i =>
  mds.foldl (fun d md =>
    let a := propagate md.2.2.1 (t - t0)
    let adagger := propagate md.2.2.2 (t - t0)
    let d := Sigma.directApply md.1 md.2.1 (Tridiag.apply adagger) true (fun n => psi (up n)) d
    Sigma.directApply md.2.1 md.1 (Tridiag.apply a) true (fun n => psi (up n)) d) (fun n => dpsidt (up n)) (down i)

/-- `mljc::Base` (MLJC.h:30-41, 62-74): `multilevelExact` if the multilevel system is derived from `multilevel::Exact`, in which case it throws, if there are couplings at all. -/
noncomputable def mljc (axes : List ℕ) (multilevelExact : Bool) (mode : ModePtr) (gs : List (ℕ × ℕ × ℂ)) : Outcome Composite.Part :=
  (gs.foldr (fun g (acc : Outcome (List (ℕ × ℕ × Tri × Tri))) => (aop mode).bind fun a =>
    if multilevelExact then .throw
    else acc.bind fun l => .ok ((g.1, g.2.1, scale (-g.2.2) a, hermitianConjugate (scale g.2.2 a)) :: l)) (.ok [])).bind fun mds =>
      .ok (interaction axes (some (mljcHam mds)))

/-! ## Particle and cavity -/

/-- `sign` (MathExtensions.h), as used below: +1 for nonnegative arguments. -/
noncomputable def sign (x : ℝ) : ℝ := open Classical in if x ≥ 0 then 1 else -1

open Classical in
/-- `etaEff` (ParticleCavity.cc:20-24); `none`: `domain_error`. -/
noncomputable def etaEff (uNot vClass : ℝ) : Option ℝ := if uNot * vClass ≥ 0 then some (sign uNot * Real.sqrt (uNot * vClass)) else none

open Classical in
/-- `dispersive` (ParticleCavity.cc:26-32). -/
noncomputable def dispersive (mode : ModePtr) (part : ParticleEl.Part) (uNot : ℝ) (mf : ParticleEl.ModeFunction) : Outcome (List Tri) :=
  if uNot ≠ 0 ∧ ¬ ParticleEl.isComplex mf.type then
    (nop mode).bind fun n => (ParticleEl.cosOf part (2 * mf.nK)).bind fun c =>
      (product (scale (if mf.type = .sin then -1 else 1) (scale (uNot : ℂ) n)) c).bind fun P => .ok [scale (1 / (2 * Complex.I)) P]
  else .ok []

/-- `interfericOneModeFN` (ParticleCavity.cc:34-37). -/
noncomputable def interfericOneModeFN (mode : ModePtr) (part : ParticleEl.Part) (etaeff : ℝ) (mf : ParticleEl.ModeFunction) : Outcome Tri :=
  (aop mode).bind fun a => (ParticleEl.mfNKX part mf).bind fun f => (product a f).bind fun P => (plusHC_overI P).bind fun R => .ok (scale (etaeff : ℂ) R)

/-- `interfericTwoModeFN` (ParticleCavity.cc:39-42). -/
noncomputable def interfericTwoModeFN (mode : ModePtr) (part : ParticleEl.Part) (etaeff : ℝ) (mfCav mfPart : ParticleEl.ModeFunction) : Outcome Tri :=
  (aop mode).bind fun a => (ParticleEl.mfComposition part mfCav mfPart).bind fun f => (product (hermitianConjugate a) f).bind fun P => (plusHC_overI P).bind fun R => .ok (scale (etaeff : ℂ) R)

open Classical in
/-- `fillT` (ParticleCavity.cc:44-51). -/
noncomputable def fillT (mode : ModePtr) (part : ParticleEl.Part) (uNot etaeff : ℝ) (mf : ParticleEl.ModeFunction) : Outcome (List Tri) :=
  (dispersive mode part uNot mf).bind fun res => if etaeff ≠ 0 then (interfericOneModeFN mode part etaeff mf).bind fun h => .ok (res ++ [h]) else .ok res

open Classical in
/-- `fillTTwoModeFN` (ParticleCavity.cc:53-61). -/
noncomputable def fillTTwoModeFN (mode : ModePtr) (part : ParticleEl.Part) (uNot etaeff : ℝ) (mf mfPart : ParticleEl.ModeFunction) (isSpecial : Bool) : Outcome (List Tri) :=
  (dispersive mode part uNot mf).bind fun res =>
    if etaeff ≠ 0 ∧ isSpecial then (interfericTwoModeFN mode part etaeff mf mfPart).bind fun h => .ok (res ++ [h]) else .ok res

/-- What a constructor can do: throw a `domain_error` from `etaEff` or `factor` before anything else, or one of the outcomes of the tridiagonal algebra. -/
noncomputable def withEta {α : Type} (eta : Option ℝ) (f : ℝ → Outcome α) : Outcome α := match eta with
  | none => .throw
  | some e => f e

/-- `ParticleOrthogonalToCavity` (ParticleCavity.cc:73-84); `mf` and `vClass` are those of the pumped particle. -/
noncomputable def particleOrthogonalToCavity (axes : List ℕ) (mode : ModePtr) (part : ParticleEl.Part) (mf : ParticleEl.ModeFunction) (vClass uNot : ℝ) : Outcome Composite.Part :=
  withEta (etaEff uNot vClass) fun etaeff => (interfericOneModeFN mode part etaeff mf).bind fun h => .ok (interaction axes (some (triHam [h])))

/-- `ParticleAlongCavity` without additional pump along the cavity (ParticleCavity.cc:93-102), from its private constructor with `etaeff`. -/
noncomputable def particleAlongCavity (axes : List ℕ) (mode : ModePtr) (part : ParticleEl.Part) (uNot : ℝ) (mfCav : ParticleEl.ModeFunction) (etaeff : ℝ) : Outcome Composite.Part :=
  (fillT mode part uNot etaeff mfCav).bind fun hs => .ok (interaction axes (some (triHam hs)))

/-- The application of an operator to the last index of an array (`fullRange<Vector<1>>` of a rank-2, `fullRange<Vector<2>>` of a rank-3 array). -/
noncomputable def applyLast (T : Tri) (psi dpsidt : NIdx → ℂ) : NIdx → ℂ := fun i =>
  Tridiag.apply T (fun n => psi (i.dropLast ++ n)) (fun n => dpsidt (i.dropLast ++ n)) [i.getLastD 0]

/-- `ParticleAlongCavity::addContribution_v` (ParticleCavity.cc:116-143), `ParticleTwoModes::addContribution_v` (ParticleTwoModes.cc:53-83). -/
noncomputable def twoStepHam (tridiagonalH : List Tri) (isSpecial : Bool) (firstH firstHT secondH secondHT : Tri) (t t0 : ℝ) (psi dpsidt : Arr ℂ) : Arr ℂ := fun i =>
  let psi : NIdx → ℂ := fun n => psi (up n)
  let d := tridiagonalH.foldl (fun d h => Tridiag.apply (propagate h (t - t0)) psi d) (fun n => dpsidt (up n))
  if isSpecial then d (down i)
  else
    let temp := Tridiag.apply (propagate firstH (t - t0)) psi (fun _ => 0)
    let d := applyLast (propagate secondH (t - t0)) temp d
    let temp := Tridiag.apply (propagate firstHT (t - t0)) psi (fun _ => 0)
    let d := applyLast (propagate secondHT (t - t0)) temp d
    d (down i)

/-- `ParticleAlongCavity` with a pump along the cavity (ParticleCavity.cc:104-113), from its private constructor with `etaeff`. -/
noncomputable def particleAlongCavityPumped (axes : List ℕ) (mode : ModePtr) (part : ParticleEl.Part) (uNot : ℝ) (mfCav mfPart : ParticleEl.ModeFunction) (etaeff : ℝ) :
    Outcome Composite.Part :=
  let isSpecial : Bool := mfCav.nK = |mfPart.nK|
  (fillTTwoModeFN mode part uNot etaeff mfCav mfPart isSpecial).bind fun hs =>
    (aop mode).bind fun a => (ParticleEl.mfNKX part mfCav).bind fun fc => (product (scale (etaeff : ℂ) a) fc).bind fun P =>
      (ParticleEl.mfNKX part mfPart).bind fun fp =>
        let firstH := scale (1 / Complex.I) P
        let secondH := hermitianConjugate fp
        .ok (interaction axes (some (twoStepHam hs isSpecial firstH (neg (hermitianConjugate firstH)) secondH (hermitianConjugate secondH))))

/-- `factor` (ParticleTwoModes.cc:24-28). -/
noncomputable def factor (uNot0 uNot1 phi : ℝ) : Option ℂ :=
  open Classical in if uNot0 * uNot1 < 0 then none else some (sign uNot0 * Real.sqrt (uNot0 * uNot1) * Complex.exp (Complex.I * phi))

/-- `ParticleTwoModes` (ParticleTwoModes.cc:34-50). -/
noncomputable def particleTwoModes (axes : List ℕ) (mode0 mode1 : ModePtr) (part : ParticleEl.Part) (uNot0 uNot1 : ℝ) (mf0 mf1 : ParticleEl.ModeFunction) (phi : ℝ) : Outcome Composite.Part :=
  match factor uNot0 uNot1 phi with
  | none => .throw
  | some f =>
    let isSpecial : Bool := |mf0.nK| = |mf1.nK|
    (aop mode0).bind fun a0 => (aop mode1).bind fun a1 => (product (scale f a0) (hermitianConjugate a1)).bind fun aa =>
      (ParticleEl.mfNKX part mf0).bind fun m0 => (product aa m0).bind fun P => (ParticleEl.mfNKX part mf1).bind fun m1 =>
        let firstH := scale (1 / Complex.I) P
        let secondH := hermitianConjugate m1
        if isSpecial then
          (product (scale f (hermitianConjugate a0)) a1).bind fun aa => (ParticleEl.mfComposition part mf0 mf1).bind fun m => (product aa m).bind fun P => (plusHC_overI P).bind fun R =>
            .ok (interaction axes (some (twoStepHam [R] true firstH (neg (hermitianConjugate firstH)) secondH (hermitianConjugate secondH))))
        else .ok (interaction axes (some (twoStepHam [] false firstH (neg (hermitianConjugate firstH)) secondH (hermitianConjugate secondH))))

end CppQED.Interactions
