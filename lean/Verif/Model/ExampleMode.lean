import Verif.Model.Interactions

/-!
# Model of the elements of the guide to implementing new elements

Sources: `/repo/CPPQEDcore/examples/ExampleMode.h`, `ExampleMode.cc`, `ExampleModeImpl.cc`, `ExampleInteraction.h`, `ExampleInteraction.cc`, which are quoted in
`/repo/CPPQEDcore/doc/structureGuide.markdown`. The frequency-like parameters and the streams of parameters are not modelled.
-/

namespace CppQED.Examples
open CppQED.Elem CppQED.Tridiag
open CppQED.ModeEl (Averages)
open ComplexConjugate

/-- The arguments of the constructors (ExampleMode.h:24, 48, 106, 115). -/
structure Pars where
  delta : ℝ
  kappa : ℝ
  eta : ℂ
  nTh : ℝ
  cutoff : ℕ

/-! ## Helpers -/

/-- `aJump` (ExampleModeImpl.cc:5-12): the same statements as those of Mode.cc:118-125. -/
noncomputable def aJump (kappa_nPlus1 : ℝ) (d : ℕ) (psi : Vec) : Vec := ModeEl.aJump kappa_nPlus1 d psi

/-- `aDagJump` (ExampleModeImpl.cc:15-21): the same statements as those of Mode.cc:127-133. -/
noncomputable def aDagJump (kappa_n : ℝ) (d : ℕ) (psi : Vec) : Vec := ModeEl.aDagJump kappa_n d psi

/-- `photonNumber` (ExampleModeImpl.cc:26-32). -/
def photonNumber (m : LDO) : ℝ := (List.range' 1 (m.dim - 1)).foldl (fun res n => res + n * m.diag n) 0

/-- `aJumpRate` (ExampleModeImpl.cc:37-40). -/
def aJumpRate (m : LDO) (kappa_nPlus1 : ℝ) : ℝ := 2 * kappa_nPlus1 * photonNumber m

/-- `aDagJumpRate` (ExampleModeImpl.cc:43-46). -/
def aDagJumpRate (m : LDO) (kappa_n : ℝ) : ℝ := 2 * kappa_n * (photonNumber m + m.trace)

/-- `aop(size_t)` (ExampleModeImpl.cc:49-54). -/
noncomputable def aop (dim : ℕ) : Outcome Tri := unary (Diag.empty 1) 1 (Diag.empty 1) (ModeEl.diag1 (dim - 1) fun i => (Real.sqrt (i + 1) : ℂ)) false

/-- `mainDiagonal` (ExampleModeImpl.cc:57-62), the content of the array of size `dim`. -/
def mainDiagonal (z : ℂ) : ℕ → ℂ := fun i => i * z

/-- `nop` (ExampleModeImpl.cc:65-68). -/
def nop (dim : ℕ) : Outcome Tri := ModeEl.diagonalOperator dim (mainDiagonal 1)

/-! ## The modes -/

/-- The jumps and rates given to `ElementLiouvilleanStrategies` (ExampleMode.cc:29-32, 71-74), or implemented in `ModeBase` (ExampleMode.cc:114-132). No superoperators are given. -/
noncomputable def lindblads (p : Pars) : List Lindblad :=
  [⟨aJump (p.kappa * (p.nTh + 1)) p.cutoff, fun m => aJumpRate m (p.kappa * (p.nTh + 1)), none⟩,
   ⟨aDagJump (p.kappa * p.nTh) p.cutoff, fun m => aDagJumpRate m (p.kappa * p.nTh), none⟩]

/-- The two designs: `namespace basic` with strategies, `namespace hierarchical` with virtual functions. -/
inductive Design where
  | basic
  | hierarchical
deriving DecidableEq

/-- The `ElementLiouvilleanStrategies` base (ExampleMode.cc:29-33, 71-75), or the `ElementLiouvillean` base of `ModeBase` (ExampleMode.cc:106-111). -/
noncomputable def liouvillean (p : Pars) : Design → Liouvillean
  | .basic => elementLiouvilleanStrategies ["photon loss", "photon absorption"] (lindblads p)
  | .hierarchical => elementLiouvillean ["photon loss", "photon absorption"] (lindblads p)

/-- `tridiagPlusHC_overI(conj(eta)*aop(cutoff))` (ExampleMode.cc:28, 69, 157, 164). -/
noncomputable def pump (p : Pars) : Outcome Tri := (aop p.cutoff).bind fun a => Interactions.plusHC_overI (scale (conj p.eta) a)

/-- The operator given to `TridiagonalHamiltonian<1,false>` (ExampleMode.cc:26-28, 155-157). -/
noncomputable def hOverI (p : Pars) : Outcome Tri :=
  (nop p.cutoff).bind fun n => (pump p).bind fun P => add (scale ⟨-p.kappa * (2 * p.nTh + 1), p.delta⟩ n) P

/-- `z_` (ExampleMode.cc:77, 166). -/
def z (p : Pars) : ℂ := ⟨p.kappa * (2 * p.nTh + 1), -p.delta⟩

/-- `updateU` (ExampleMode.cc:81-84, 171-174). -/
noncomputable def updateU (p : Pars) (dtDid : ℝ) (n : ℕ) : ℂ := Complex.exp (-z p * (dtDid * n))

/-- `PumpedLossyMode` (ExampleMode.cc:20-37, 153-158). -/
noncomputable def mode (p : Pars) (design : Design) : Outcome Element :=
  (hOverI p).bind fun h => .ok ⟨p.cutoff, some (TriHam.mk false [h]).addContribution, none, true, some (liouvillean p design)⟩

/-- `PumpedLossyModeIP` (ExampleMode.cc:61-78, 161-167); `applicableInMaster_v` (ExampleMode.h:55, 122). -/
noncomputable def modeIP (p : Pars) (design : Design) : Outcome Element :=
  (pump p).bind fun P => .ok ⟨p.cutoff, some (TriHam.mk true [furnishWithFreqs P (mainDiagonal (z p))]).addContribution, some (updateU p), true, some (liouvillean p design)⟩

/-- `average_v` (ExampleMode.cc:40-55, 88-103, 135-150). -/
noncomputable def average (m : LDO) : Averages :=
  let averages : Averages := fun _ => 0
  let averages := averages.set 0 (aJumpRate m 1)
  (List.range' 1 (m.dim - 1)).foldl (fun a n =>
    let offdiag := m.index n (n - 1)
    let a := a.add 1 (Real.sqrt n * offdiag.re)
    a.add 2 (Real.sqrt n * offdiag.im)) averages

/-! ## The interaction -/

/-- A `hierarchical::ModeBase`: is it a `PumpedLossyModeIP`? -/
structure ModeRef where
  pars : Pars
  ip : Bool

/-- The mode referred to. -/
noncomputable def ModeRef.make (m : ModeRef) : Outcome Element := if m.ip then modeIP m.pars .hierarchical else mode m.pars .hierarchical

/-- `aop(const hierarchical::ModeBase&)` (ExampleModeImpl.cc:71-79). -/
noncomputable def aopOf (m : ModeRef) : Outcome Tri :=
  (aop m.pars.cutoff).bind fun a => .ok (if m.ip then furnishWithFreqs a (mainDiagonal (z m.pars)) else a)

/-- `g*(a+a.dagger())*(b+b.dagger())` (ExampleInteraction.cc:6-9, 15-18). -/
noncomputable def xx (a b : Outcome Tri) (g : ℝ) : Outcome Tri :=
  a.bind fun a => (add a (hermitianConjugate a)).bind fun X => b.bind fun b => (add b (hermitianConjugate b)).bind fun Q => product (scale (g : ℂ) X) Q

/-- `TridiagonalHamiltonian<2,false>::addContribution_v` (TridiagonalHamiltonian.h:42-47). -/
noncomputable def triHamStatic (hOverIs : List Tri) (_t _t0 : ℝ) (psi dpsidt : Slice.Arr ℂ) : Slice.Arr ℂ := fun i =>
  hOverIs.foldl (fun d h => Tridiag.apply h (fun n => psi (Interactions.up n)) d) (fun n => dpsidt (Interactions.up n)) (Interactions.down i)

/-- `basic::InteractionX_X` (ExampleInteraction.cc:4-10) of modes of the given dimensions. -/
noncomputable def interactionBasic (d0 d1 : ℕ) (g : ℝ) : Outcome Composite.Part :=
  (xx (aop d0) (aop d1) g).bind fun h => .ok (Interactions.interaction [0, 1] (some (triHamStatic [h])))

/-- `hierarchical::InteractionX_X` (ExampleInteraction.cc:13-19). -/
noncomputable def interaction (m0 m1 : ModeRef) (g : ℝ) : Outcome Composite.Part :=
  (xx (aopOf m0) (aopOf m1) g).bind fun h => .ok (Interactions.interaction [0, 1] (some (Interactions.triHam [h])))

/-! ## The correlations -/

/-- `LazyDensityOperator<2>`: the dimensions and `matrix(n,m)(n',m')`. -/
structure LDO2 where
  d0 : ℕ
  d1 : ℕ
  index : ℕ × ℕ → ℕ × ℕ → ℂ

/-- The body of the loops (ExampleInteraction.cc:27-36). The products under the square roots are of type `int`; that they do not overflow is assumed. -/
noncomputable def correlationStep (M : LDO2) (n : ℕ) (a : Averages) (m : ℕ) : Averages :=
  let a := if n + 1 < M.d0 then
      let temp := (Real.sqrt (m * (n + 1)) : ℂ) * M.index (n, m) (n + 1, m - 1)
      (a.add 0 temp.re).add 1 temp.im
    else a
  if 0 < n then
    let temp := (Real.sqrt (m * n) : ℂ) * M.index (n, m) (n - 1, m - 1)
    (a.add 2 temp.re).add 3 temp.im
  else a

/-- `InteractionX_X_Correlations::average_v` (ExampleInteraction.cc:22-49): the four averages. -/
noncomputable def correlations (M : LDO2) : List ℝ :=
  let a := (List.range M.d0).foldl (fun a n => (List.range' 1 (M.d1 - 1)).foldl (correlationStep M n) a) fun _ => 0
  let xq := a 0 + a 2
  let xp := a 1 + a 3
  let yq := -a 1 + a 3
  let yp := a 0 - a 2
  [xq, xp, yq, yp]

end CppQED.Examples
