import Verif.Model.MCWF
import Verif.Model.Master

/-!
# Model of the storage of state vectors and density operators

Sources: `/repo/CPPQEDcore/quantumdata/ArrayBase.h`, `/repo/CPPQEDcore/quantumdata/StateVector.h`, `/repo/CPPQEDcore/quantumdata/DensityOperator.h`, and, for the use of these classes,
`/repo/CPPQEDcore/quantumtrajectory/MCWF_Trajectory.h`, `/repo/CPPQEDcore/quantumtrajectory/Master.h`, `/repo/CPPQEDcore/quantumtrajectory/Evolution_.h`.

An object of these classes is a reference to a block of memory (the reference-counted block of a `blitz::Array`). A block lives as long as some object refers to it; here blocks are never
freed. All the objects have the same shape (assignment between different shapes is undefined in the code).
-/

namespace CppQED.Alias

/-- The memory: blocks `0, …, next-1` are allocated. -/
structure Mem (V : Type*) where
  next : ℕ
  cell : ℕ → V

variable {V : Type*}

/-- A new block with given content; the block and the new memory. -/
def alloc (m : Mem V) (v : V) : ℕ × Mem V := (m.next, ⟨m.next + 1, Function.update m.cell m.next v⟩)

/-- Elementwise writing of a block. -/
def write (m : Mem V) (l : ℕ) (v : V) : Mem V := ⟨m.next, Function.update m.cell l v⟩

/-- An in-place operation (`operator*=`, `operator/=`, `renorm`, a function taking `psi.getArray()` by reference). -/
def modify (m : Mem V) (l : ℕ) (f : V → V) : Mem V := write m l (f (m.cell l))

/-- The copy constructors `StateVector(const StateVector&)` (StateVector.h:79-80), `DensityOperator(const DensityOperator&)` (DensityOperator.h:68-69): `sv.getArray().copy()`. -/
def copyCtor (m : Mem V) (l : ℕ) : ℕ × Mem V := alloc m (m.cell l)

/-- The move constructors (StateVector.h:86, DensityOperator.h:72-73, ArrayBase.h:33): the same block, and the argument is left as it is. -/
def moveCtor (l : ℕ) : ℕ := l

/-- The assignments (StateVector.h:103-110, DensityOperator.h:77-84, ArrayBase.h:46): elementwise, both for lvalues and for rvalues. -/
def assign (m : Mem V) (l k : ℕ) : Mem V := write m l (m.cell k)

/-! ## Programs of a user -/

/-- The statements on variables `0, 1, …` of type `StateVector` (or `DensityOperator`). -/
inductive Stmt (V : Type*) where
  /-- `StateVector psi(dimensions,initializer);` -/
  | declare (v : V)
  /-- `StateVector psi(x);` -/
  | copy (x : ℕ)
  /-- `StateVector psi(std::move(x));` -/
  | move (x : ℕ)
  /-- `x=y;` -/
  | assign (x y : ℕ)
  /-- `x=std::move(y);` -/
  | moveAssign (x y : ℕ)
  /-- `x*=c; x.renorm();` … -/
  | modify (x : ℕ) (f : V → V)
  /-- `x+=y; x-=y;` -/
  | combine (x y : ℕ) (f : V → V → V)
  /-- `x.getArray().reference(y.getArray());` -/
  | reference (x y : ℕ)

/-- The memory, the number of variables, and the block each of them refers to. -/
structure Store (V : Type*) where
  mem : Mem V
  count : ℕ
  ref : ℕ → ℕ

/-- A new variable referring to block `l`. -/
def bindNew (s : Store V) (r : ℕ × Mem V) : Store V := ⟨r.2, s.count + 1, Function.update s.ref s.count r.1⟩

/-- The effect of a statement. -/
def exec (s : Store V) : Stmt V → Store V
  | .declare v => bindNew s (alloc s.mem v)
  | .copy x => bindNew s (copyCtor s.mem (s.ref x))
  | .move x => bindNew s (moveCtor (s.ref x), s.mem)
  | .assign x y => { s with mem := assign s.mem (s.ref x) (s.ref y) }
  | .moveAssign x y => { s with mem := assign s.mem (s.ref x) (s.ref y) }
  | .modify x f => { s with mem := modify s.mem (s.ref x) f }
  | .combine x y f => { s with mem := write s.mem (s.ref x) (f (s.mem.cell (s.ref x)) (s.mem.cell (s.ref y))) }
  | .reference x y => { s with ref := Function.update s.ref x (s.ref y) }

/-- The effect of a program. -/
def execAll (s : Store V) (p : List (Stmt V)) : Store V := p.foldl exec s

/-- The elements a variable shows. -/
def read (s : Store V) (x : ℕ) : V := s.mem.cell (s.ref x)

/-! ## The Monte Carlo trajectory -/

section MCWF
variable {ι κ : Type*} [Fintype ι]

/-- The data members of `MCWF_Trajectory` (MCWF_Trajectory.h:168-190) with the block `psi_` refers to; cf. `MCWF.St`. -/
structure Obj (κ : Type*) where
  loc : ℕ
  t : ℝ
  t0 : ℝ
  ces : κ
  dtDid : ℝ
  dtTry : WithTop ℝ
  nSteps : ℕ
  nFailedSteps : ℕ
  nRandom : ℕ

/-- What the object shows: the data members with the elements of `psi_`. -/
def view (m : Mem (ι → ℂ)) (o : Obj κ) : MCWF.St ι κ := ⟨o.t, o.t0, m.cell o.loc, o.ces, o.dtDid, o.dtTry, o.nSteps, o.nFailedSteps, o.nRandom⟩

/-- The evolution without the exact part (MCWF_Trajectory.h:252-261): the ODE engine steps `psi_.getArray()` in place. -/
noncomputable def evolve (S : MCWF.Sys ι κ) (fuel : ℕ) (Dt : ℝ) (m : Mem (ι → ℂ)) (o : Obj κ) : Option (Mem (ι → ℂ) × Obj κ) :=
  match S.ha with
  | some ha =>
    match o.dtTry with
    | ⊤ => none
    | (d : ℝ) =>
      (ODE.step (ha o.t0) fuel Dt ⟨o.ces, o.dtDid, d, o.nSteps, o.nFailedSteps⟩ (m.cell o.loc) o.t).map fun r =>
        (write m o.loc r.1, { o with t := r.2.1, ces := r.2.2.ces, dtDid := r.2.2.dtDid, dtTry := (r.2.2.dtTry : ℝ), nSteps := r.2.2.nSteps,
                                     nFailedSteps := r.2.2.nFailedSteps })
  | none =>
    let stepToDo := match S.li with
      | some _ => (min o.dtTry (Dt : WithTop ℝ)).untopD 0
      | none => Dt
    some (m, { o with t := o.t + stepToDo, dtDid := stepToDo })

/-- The exact part (MCWF_Trajectory.h:268-271), in place. -/
def exact (S : MCWF.Sys ι κ) (m : Mem (ι → ℂ)) (o : Obj κ) : Mem (ι → ℂ) × Obj κ :=
  match S.ex with
  | some actWithU => (modify m o.loc fun psi => actWithU o.t psi o.t0, { o with t0 := o.t })
  | none => (m, o)

/-- `coherentTimeDevelopment` (MCWF_Trajectory.h:249-275). -/
noncomputable def coherent (S : MCWF.Sys ι κ) (fuel : ℕ) (Dt : ℝ) (m : Mem (ι → ℂ)) (o : Obj κ) : Option (Mem (ι → ℂ) × Obj κ) :=
  (evolve S fuel Dt m o).map fun r => let s := exact S r.1 r.2; (modify s.1 s.2.loc MCWF.renorm, s.2)

open Classical in
/-- `calculateSpecialRates` (MCWF_Trajectory.h:278-290) from the rate number `i` on: the memory, the rates, and the list of the indices with the blocks of the jumped states. `psiTemp` is a
deep copy of `psi_`, it is jumped in place, its array is taken into the list by reference, and it is finally normalised in place. -/
noncomputable def specialLoop (l : MCWF.Li ι) (t : ℝ) (loc : ℕ) : ℕ → List ℝ → Mem (ι → ℂ) → Mem (ι → ℂ) × List ℝ × List (ℕ × ℕ)
  | _, [], m => (m, [], [])
  | i, r :: rs, m =>
    if r < 0 then
      let psiTemp := copyCtor m loc
      let m := modify psiTemp.2 psiTemp.1 fun psi => l.actWithJ t psi i
      let entry := (i, psiTemp.1)
      let n := MCWF.norm (m.cell psiTemp.1)
      let m := modify m psiTemp.1 MCWF.renorm
      let rest := specialLoop l t loc (i + 1) rs m
      (rest.1, n ^ 2 :: rest.2.1, entry :: rest.2.2)
    else
      let rest := specialLoop l t loc (i + 1) rs m
      (rest.1, r :: rest.2.1, rest.2.2)

/-- `li->rates(t_,psi_)` followed by `calculateSpecialRates` (MCWF_Trajectory.h:354-355, 360-361). -/
noncomputable def rates (l : MCWF.Li ι) (m : Mem (ι → ℂ)) (o : Obj κ) : Mem (ι → ℂ) × List ℝ × List (ℕ × ℕ) :=
  specialLoop l o.t o.loc 0 (l.rates o.t (m.cell o.loc)) m

/-- The effect of `manageTimeStep` on the data members if the step-back is required (MCWF_Trajectory.h:303). -/
noncomputable def setBack (L : MCWF.Lim) (rates : List ℝ) (tCache dtDidCache : ℝ) (o : Obj κ) : Obj κ :=
  { o with t := tCache, dtDid := dtDidCache, dtTry := MCWF.suggested L rates }

/-- … and if it is not (MCWF_Trajectory.h:312). -/
noncomputable def adjustTry (S : MCWF.Sys ι κ) (L : MCWF.Lim) (rates : List ℝ) (o : Obj κ) : Obj κ :=
  { o with dtTry := match S.ha with
    | some _ => min o.dtTry (MCWF.suggested L rates)
    | none => MCWF.suggested L rates }

/-- `performJump` (MCWF_Trajectory.h:320-344): a special jump is an elementwise assignment from the tabulated array, another one is performed in place. -/
noncomputable def performJump (l : MCWF.Li ι) (sample : ℕ → ℝ) (rates : List ℝ) (special : List (ℕ × ℕ)) (m : Mem (ι → ℂ)) (o : Obj κ) : Mem (ι → ℂ) × Obj κ :=
  let o' := { o with nRandom := o.nRandom + 1 }
  match MCWF.selectJump rates (sample o.nRandom) o.dtDid with
  | some no =>
    match special.find? (fun j => j.1 == no) with
    | some j => (assign m o.loc j.2, o')
    | none => (modify (modify m o.loc fun psi => l.actWithJ o.t psi no) o.loc fun psi => MCWF.divBy psi (Real.sqrt (rates.getD no 0)), o')
  | none => (m, o')

open Classical in
/-- The `while` loop of `step` with the calculation of the rates preceding it and the jump following it (MCWF_Trajectory.h:354-368): `none` if more than `n` step-backs. `psiCache` is a
block. -/
noncomputable def retryLoop (S : MCWF.Sys ι κ) (l : MCWF.Li ι) (L : MCWF.Lim) (sample : ℕ → ℝ) (fuel : ℕ) (Dt : ℝ) (psiCache : ℕ) (tCache dtDidCache : ℝ) :
    ℕ → Mem (ι → ℂ) → Obj κ → Option (Mem (ι → ℂ) × Obj κ)
  | n, m, o =>
    let r := rates l m o
    if MCWF.overshot L r.2.1 o.dtDid then
      match n with
      | 0 => none
      | n + 1 =>
        (coherent S fuel Dt (assign r.1 o.loc psiCache) (setBack L r.2.1 tCache dtDidCache o)).bind fun s =>
          retryLoop S l L sample fuel Dt psiCache tCache dtDidCache n s.1 s.2
    else some (performJump l sample r.2.1 r.2.2 r.1 (adjustTry S L r.2.1 o))

/-- `MCWF_Trajectory::step` (MCWF_Trajectory.h:347-374): `psiCache` is a deep copy. -/
noncomputable def step (S : MCWF.Sys ι κ) (L : MCWF.Lim) (sample : ℕ → ℝ) (fuel n : ℕ) (Dt : ℝ) (m : Mem (ι → ℂ)) (o : Obj κ) : Option (Mem (ι → ℂ) × Obj κ) :=
  let psiCache := copyCtor m o.loc
  (coherent S fuel Dt psiCache.2 o).bind fun s =>
    match S.li with
    | some l => retryLoop S l L sample fuel Dt psiCache.1 o.t o.dtDid n s.1 s.2
    | none => some s

open Classical in
/-- The constructor (MCWF_Trajectory.h:103-118): `psi_{std::forward<StateVector>(psi)}` is the move constructor whether the argument is an lvalue or not. -/
noncomputable def construct (S : MCWF.Sys ι κ) (L : MCWF.Lim) (ces : κ) (dtInit : ℝ) (m : Mem (ι → ℂ)) (psi : ℕ) : Mem (ι → ℂ) × Obj κ :=
  let o : Obj κ := ⟨moveCtor psi, 0, 0, ces, 0, dtInit, 0, 0, 0⟩
  match S.li with
  | some l =>
    let r := rates l m o
    (r.1, if MCWF.overshot L r.2.1 o.dtDid then setBack L r.2.1 0 0 o else adjustTry S L r.2.1 o)
  | none => (m, o)

/-- The copy constructor of the trajectory (MCWF_Trajectory.h:88), memberwise. -/
def copyObj (m : Mem (ι → ℂ)) (o : Obj κ) : Obj κ × Mem (ι → ℂ) := let r := copyCtor m o.loc; ({ o with loc := r.1 }, r.2)

/-- `stateIO` reading (MCWF_Trajectory.h:138-145): the array is read into a new block, and `psi_.getArray().reference(temp)` makes `psi_` refer to it. -/
def load (r : MCWF.Record ι κ) (m : Mem (ι → ℂ)) (o : Obj κ) : Mem (ι → ℂ) × Obj κ :=
  let temp := alloc m r.psi
  (temp.2, ⟨temp.1, r.t, r.t, r.ces, r.dtDid, r.dtTry, r.nSteps, r.nFailedSteps, r.nRandom⟩)

/-- The copying of the elements of a vector of trajectories into new storage: the memory and the new elements. -/
def relocate (m : Mem (ι → ℂ)) (os : List (Obj κ)) : Mem (ι → ℂ) × List (Obj κ) :=
  os.foldl (fun a x => let c := copyObj a.1 x; (c.2, a.2 ++ [c.1])) (m, [])

/-- `makeEnsemble` (MCWF_Trajectory.h:213-227): every trajectory is made from a temporary deep copy of `psi`, and gets moved into the vector. `grows k` tells whether `push_back` reallocates
a vector of `k` elements; then the earlier elements get copied, since the move constructor of the trajectory is not `noexcept`. -/
noncomputable def makeEnsemble (S : MCWF.Sys ι κ) (L : MCWF.Lim) (ces : κ) (dtInit : ℝ) (grows : ℕ → Bool) (psi : ℕ) : ℕ → Mem (ι → ℂ) → Mem (ι → ℂ) × List (Obj κ)
  | 0, m => (m, [])
  | k + 1, m =>
    let r := makeEnsemble S L ces dtInit grows psi k m
    let temp := copyCtor r.1 psi
    let o := construct S L ces dtInit temp.2 temp.1
    let moved := if grows k then relocate o.1 r.2 else (o.1, r.2)
    (moved.1, moved.2 ++ [o.2])

end MCWF

/-! ## The Master equation -/

section Master
variable {n : ℕ} {κ : Type*}

/-- The data members of `Master` (Master.h:109-117) with the block `rho_` refers to. -/
structure MObj (κ : Type*) where
  loc : ℕ
  t : ℝ
  t0 : ℝ
  ode : ODE.Engine κ

/-- What the object shows. -/
def mview (m : Mem (Master.Rho n)) (o : MObj κ) : Master.St n κ := ⟨o.t, o.t0, m.cell o.loc, o.ode⟩

/-- A `DensityOperatorLow`: a block and whether the left and right axes are exchanged. -/
structure Handle where
  loc : ℕ
  swapped : Bool

/-- The elements through the array. -/
def elements (m : Mem (Master.Rho n)) (h : Handle) : Master.Rho n := if h.swapped then (m.cell h.loc).transpose else m.cell h.loc

/-- Overwriting the elements through the array. -/
def setElements (m : Mem (Master.Rho n)) (h : Handle) (rho : Master.Rho n) : Mem (Master.Rho n) := write m h.loc (if h.swapped then rho.transpose else rho)

/-- `blitzplusplus::hermitianConjugateSelf` (ComplexArrayExtensions.h:38-55): the block gets conjugated, the axes of the array exchanged. -/
def hermitianConjugateSelf (m : Mem (Master.Rho n)) (h : Handle) : Mem (Master.Rho n) × Handle :=
  (setElements m h (Matrix.of fun i j => (starRingEnd ℂ) (elements m h i j)), ⟨h.loc, !h.swapped⟩)

/-- The exact part (Master.h:186-192): `rhoLow` refers to the same block as `rho_`. -/
def mexact (S : Master.Sys n) (m : Mem (Master.Rho n)) (o : MObj κ) : Mem (Master.Rho n) :=
  match S.ex with
  | some actWithU =>
    let rhoLow : Handle := ⟨o.loc, false⟩
    let m := setElements m rhoLow (Master.overColumns (fun psi => actWithU o.t psi o.t0) (elements m rhoLow))
    let c := hermitianConjugateSelf m rhoLow
    let m := c.1
    let rhoLow := c.2
    let m := setElements m rhoLow (Master.overColumns (fun psi => actWithU o.t psi o.t0) (elements m rhoLow))
    setElements m rhoLow (Matrix.of fun i j => (starRingEnd ℂ) (elements m rhoLow i j))
  | none => m

/-- `Master::step` (Master.h:152-208), in place. -/
noncomputable def mstep (solver : (ℝ → Master.Rho n → Master.Rho n) → ODE.Stepper (Master.Rho n) κ) (S : Master.Sys n) (fuel : ℕ) (deltaT : ℝ) (m : Mem (Master.Rho n))
    (o : MObj κ) : Option (Mem (Master.Rho n) × MObj κ) :=
  (ODE.step (solver fun t rho => Master.derivative S t o.t0 rho) fuel deltaT o.ode (m.cell o.loc) o.t).map fun r =>
    let m := write m o.loc r.1
    let o := { o with t := r.2.1, ode := r.2.2 }
    let m := mexact S m o
    let o := { o with t0 := o.t }
    let m := modify m o.loc Master.twoTimesRealPart
    (modify m o.loc Master.renorm, o)

/-- The constructor from a `DensityOperator` rvalue, which `evolveMaster` (Evolution_.h:63-66) makes of any argument (Master.h:62-75): the move constructor; `none` on exceptions. -/
def mconstruct (S : Master.Sys n) (dimsAgree : Bool) (ode : ODE.Engine κ) (rho : ℕ) : Option (MObj κ) :=
  if S.ex.isSome ∧ S.exApplicable = false then none
  else if dimsAgree = false then none
  else some ⟨moveCtor rho, 0, 0, ode⟩

/-- `stateIO` reading (Master.h:93-100). -/
def mload (r : Master.Rho n × ℝ × ODE.Engine κ) (m : Mem (Master.Rho n)) (_ : MObj κ) : Mem (Master.Rho n) × MObj κ :=
  let temp := alloc m r.1
  (temp.2, ⟨temp.1, r.2.1, r.2.1, r.2.2⟩)

end Master

/-! ## Runs -/

/-- What happens to a trajectory: a step, or the loading of a state. -/
inductive Op (R : Type*) where
  | step (Dt : ℝ)
  | load (r : R)

/-- A history of operations on an object of type `O` in the memory. -/
def runObj {V O R : Type*} (step : ℝ → Mem V → O → Option (Mem V × O)) (load : R → Mem V → O → Mem V × O) : List (Op R) → Mem V → O → Option (Mem V × O)
  | [], m, o => some (m, o)
  | .step Dt :: ops, m, o => (step Dt m o).bind fun s => runObj step load ops s.1 s.2
  | .load r :: ops, m, o => let s := load r m o; runObj step load ops s.1 s.2

/-- The same history on a value of type `X`, with no memory. -/
def runValue {X R : Type*} (step : ℝ → X → Option X) (load : R → X → X) : List (Op R) → X → Option X
  | [], x => some x
  | .step Dt :: ops, x => (step Dt x).bind (runValue step load ops)
  | .load r :: ops, x => runValue step load ops (load r x)

/-- A history of operations on the members of an ensemble: which member, and which operation; an index outside the ensemble is ignored. -/
def runMany {V O R : Type*} (step : ℕ → ℝ → Mem V → O → Option (Mem V × O)) (load : R → Mem V → O → Mem V × O) :
    List (ℕ × Op R) → Mem V → List O → Option (Mem V × List O)
  | [], m, os => some (m, os)
  | (i, op) :: ops, m, os =>
    match os[i]? with
    | none => runMany step load ops m os
    | some o =>
      match op with
      | .step Dt => (step i Dt m o).bind fun s => runMany step load ops s.1 (os.set i s.2)
      | .load r => let s := load r m o; runMany step load ops s.1 (os.set i s.2)

end CppQED.Alias
