import Verif.Model.Slice
import Verif.Model.PartialTrace
import Mathlib.Data.Real.Basic
import Mathlib.Analysis.Complex.Norm

/-!
# Model of composite systems: `BinarySystem` and `Composite`

Sources: `/repo/CPPQEDcore/composites/BinarySystem.cc`, `/repo/CPPQEDcore/composites/Composite.tcc`, `/repo/CPPQEDcore/composites/Composite.h`,
`/repo/CPPQEDcore/composites/details_TMP_helpers.h`, `/repo/CPPQEDcore/structure/Structure.h`, `/repo/CPPQEDcore/structure/DynamicsBase.cc`,
`/repo/CPPQEDutils/KeyPrinter.cc`, `/repo/CPPQEDutils/Algorithm.h`.

The compile-time loops (`mpl::for_each<Ordinals>`, `fusion::for_each(acts_,…)`) are loops over lists. `size_t` is a natural number below `2^64`.
-/

namespace CppQED.Composite
open CppQED.MII (Idx)
open CppQED.Slice (Arr)

/-- Subtraction of `size_t`. -/
def sub64 (a b : ℕ) : ℕ := (a + 2 ^ 64 - b) % 2 ^ 64

/-! ## Keys -/

/-- What is written in a key: a title, or a numbered label. -/
inductive KeyItem where
  | title (s : String)
  | entry (i : ℕ) (label : String)
deriving DecidableEq

/-- `KeyPrinter::stream` (KeyPrinter.cc:14-21): the items written, and the new value of `i`. -/
def keyPrinter (keyTitle : String) (keyLabels : List String) (i : ℕ) : List KeyItem × ℕ :=
  keyLabels.foldl (fun st label => (st.1 ++ [.entry st.2 label], st.2 + 1)) ([.title keyTitle], i)

/-! ## Components -/

/-- The interface `LiouvilleanAveragedCommonRanked` (LiouvilleanAveragedCommon.h:40-105). The argument of `average` is the matrix of a lazy density operator. The exceptions of
`average` (wrong number of averages, infinite average) are not modelled; the theorems suppose the correct number. -/
structure LA where
  nAvr : ℕ
  streamKey : ℕ → List KeyItem × ℕ
  average : ℝ → (Idx → Idx → ℂ) → List ℝ

/-- The interface `Liouvillean`. -/
structure Li extends LA where
  actWithJ : ℝ → ℕ → Arr ℂ → Arr ℂ
  actWithSuperoperator : ℝ → ℕ → Arr ℂ → Arr ℂ → Arr ℂ

/-- The interface `Averaged` (Averaged.h). -/
structure Av extends LA where
  process : List ℝ → List ℝ
  stream : List ℝ → List String

/-- A component of a composite system: a `SubSystemFree` or a `SubSystemsInteraction` with the axes it acts on (SubSystem.h, Structure.h:81-188). A null pointer is `none`. -/
structure Part where
  axes : List ℕ
  ex : Option (ℝ → ℝ → Arr ℂ → Arr ℂ)
  applicable : Bool
  ha : Option (ℝ → ℝ → Arr ℂ → Arr ℂ → Arr ℂ)
  li : Option Li
  av : Option Av

/-- `LA_Li` and `LA_Av` (Structure.h:131-132, `getLA`). -/
inductive Tag where
  | li
  | av

/-- `QuantumSystemWrapper::getLA`. -/
def getLA (p : Part) : Tag → Option LA
  | .li => p.li.map Li.toLA
  | .av => p.av.map Av.toLA

/-- `QuantumSystemWrapper::nAvr` (Structure.h:165). -/
def nAvr (tag : Tag) (p : Part) : ℕ := match getLA p tag with | none => 0 | some la => la.nAvr

/-- `QuantumSystemWrapper::streamKey` (Structure.h:168), appending to what has been written. -/
def streamKey (tag : Tag) (st : List KeyItem × ℕ) (p : Part) : List KeyItem × ℕ :=
  match getLA p tag with
  | none => st
  | some la => (st.1 ++ (la.streamKey st.2).1, (la.streamKey st.2).2)

/-- `structure::average` (Structure.h:63-67). -/
def average (tag : Tag) (p : Part) (t : ℝ) (m : Idx → Idx → ℂ) : List ℝ := match getLA p tag with | none => [] | some la => la.average t m

/-- The sum of blitz arrays. -/
scoped instance : Add (List ℝ) := ⟨List.zipWith (· + ·)⟩

/-- The state of a system: a state vector or a density operator, seen as a `LazyDensityOperator`. -/
inductive Ldo where
  | sv (psi : Arr ℂ)
  | dm (rho : Arr ℂ)

/-- The matrix of a lazy density operator (StateVector.h:192, DensityOperator.h:132). -/
noncomputable def Ldo.mat : Ldo → Idx → Idx → ℂ
  | .sv psi => fun i j => psi i * (starRingEnd ℂ) (psi j)
  | .dm rho => fun i j => rho (i ++ j)

/-- Its slices (cf. PTrace.svSlice, PTrace.doSlice). -/
noncomputable def Ldo.slice (r : ℕ) (V : List ℕ) : Ldo → Idx → Idx → Idx → ℂ
  | .sv psi => PTrace.svSlice r V psi
  | .dm rho => PTrace.doSlice r V rho

/-- The slices visited by `fullRange<V>`; the bound of the number of steps is never reached (Slice.fullRange_spec). -/
def slices (r : ℕ) (V : List ℕ) (lb ub : Idx) : List Idx := (Slice.fullRange r V lb ub ((Spec.boxSize lb ub).toNat + 1)).getD []

/-! ## `Composite` -/

/-- A composite system with `r` free subsystems, in the array bounds `lb`, `ub`. -/
structure Comp where
  r : ℕ
  lb : Idx
  ub : Idx
  frees : List Part
  acts : List Part

/-- The order of all loops: `mpl::for_each<Ordinals>` with `tmptools::Vector<idx>`, followed by `fusion::for_each(acts_,…)`. -/
def Comp.parts (c : Comp) : List Part := c.frees.mapIdx (fun idx p => { p with axes := [idx] }) ++ c.acts

/-- `streamKeyLA` (Composite.tcc:206-218). -/
def Comp.streamKeyLA (c : Comp) (tag : Tag) (i : ℕ) : List KeyItem × ℕ := c.parts.foldl (streamKey tag) ([], i)

/-- `nAvrLA` (Composite.tcc:221-234). -/
def Comp.nAvrLA (c : Comp) (tag : Tag) : ℕ := c.parts.foldl (fun res p => res + nAvr tag p) 0

/-- `concatenate` (Algorithm.h:51-69): the sequences are copied one after the other in `out`. -/
def concatenate (sOs : List (List ℝ)) (out : List ℝ) : List ℝ :=
  let st := sOs.foldl (fun (st : List ℝ × ℕ) t => (st.1.take st.2 ++ t ++ st.1.drop (st.2 + t.length), st.2 + t.length)) (out, 0)
  st.1

/-- `averageLA` (Composite.tcc:238-269). -/
noncomputable def Comp.averageLA (c : Comp) (tag : Tag) (t : ℝ) (ldo : Ldo) : List ℝ :=
  let seqAverages := c.parts.map fun p => (PTrace.partialTrace (slices c.r p.axes c.lb c.ub) (fun d => average tag p t (ldo.slice c.r p.axes d))).getD []
  concatenate seqAverages (List.replicate (c.nAvrLA tag) 0)

/-- The variables of `actWithJ_v`: `flag`, `ordoJump`, and the object acted on. -/
structure JumpState (β : Type*) where
  flag : Bool
  ordoJump : ℕ
  x : β

/-- The lambda of `actWithJ_v` and `actWithSuperoperator_v` (Composite.tcc:283-292, 311-322). -/
def jumpLambda {β : Type*} (act : Part → Li → ℕ → β → β) (st : JumpState β) (p : Part) : JumpState β :=
  match p.li with
  | none => st
  | some li =>
    if st.flag then st
    else
      let n := li.nAvr
      let st' := if st.ordoJump < n then { st with x := act p li st.ordoJump st.x, flag := true } else st
      { st' with ordoJump := sub64 st'.ordoJump n }

/-- A jump of a component on all the slices (Composite.tcc:287). -/
noncomputable def jumpOnSlices (r : ℕ) (lb ub : Idx) (t : ℝ) (p : Part) (li : Li) (i : ℕ) (psi : Arr ℂ) : Arr ℂ :=
  Slice.forEachSlice r p.axes lb ub (slices r p.axes lb ub) (li.actWithJ t i) psi

/-- `actWithJ_v` (Composite.tcc:279-303). -/
noncomputable def Comp.actWithJ (c : Comp) (t : ℝ) (psi : Arr ℂ) (ordoJump : ℕ) : Arr ℂ :=
  (c.parts.foldl (jumpLambda (jumpOnSlices c.r c.lb c.ub t)) ⟨false, ordoJump, psi⟩).x

/-- `ExtendVector_t<RANK,V>` (TMP_Tools.h:202-215). -/
def extendVector (r : ℕ) (V : List ℕ) : List ℕ := V ++ V.map (· + r)

/-- The superoperator of a component on all the slices (Composite.tcc:315-318). -/
noncomputable def superoperatorOnSlices (r : ℕ) (lb ub : Idx) (t : ℝ) (rho : Arr ℂ) (p : Part) (li : Li) (i : ℕ) (drhodt : Arr ℂ) : Arr ℂ :=
  Slice.forEachSlice₂ (2 * r) (extendVector r p.axes) (lb ++ lb) (ub ++ ub) (slices (2 * r) (extendVector r p.axes) (lb ++ lb) (ub ++ ub))
    (li.actWithSuperoperator t i) rho drhodt

/-- `actWithSuperoperator_v` (Composite.tcc:306-333). -/
noncomputable def Comp.actWithSuperoperator (c : Comp) (t : ℝ) (rho drhodt : Arr ℂ) (ordoJump : ℕ) : Arr ℂ :=
  (c.parts.foldl (jumpLambda (superoperatorOnSlices c.r c.lb c.ub t rho)) ⟨false, ordoJump, drhodt⟩).x

/-- `averages(blitz::Range(a,b))`. -/
def readRange (xs : List ℝ) (a b : Int) : List ℝ := (xs.drop a.toNat).take (b + 1 - a).toNat

/-- The effect of overwriting `averages(blitz::Range(a,b))`. -/
def writeRange (xs : List ℝ) (a b : Int) (ys : List ℝ) : List ℝ := xs.take a.toNat ++ ys ++ xs.drop (b + 1).toNat

/-- The lambda of `process_v` (Composite.tcc:347-354); the state consists of `l` and the averages (`u` is not used across calls). -/
def processLambda (st : Int × List ℝ) (p : Part) : Int × List ℝ :=
  match p.av with
  | none => st
  | some av =>
    let l := st.1
    let u := l + av.nAvr
    if u > l then (u, writeRange st.2 (l + 1) u (av.process (readRange st.2 (l + 1) u))) else st

/-- `process_v` (Composite.tcc:343-361). -/
def Comp.process (c : Comp) (averages : List ℝ) : List ℝ := (c.parts.foldl processLambda (-1, averages)).2

/-- The lambda of `stream_v` (Composite.tcc:369-375); the state consists of `l` and what has been written. -/
def streamLambda (averages : List ℝ) (st : Int × List String) (p : Part) : Int × List String :=
  match p.av with
  | none => st
  | some av =>
    let l := st.1
    let u := l + av.nAvr
    if u > l then (u, st.2 ++ av.stream (readRange averages (l + 1) u)) else st

/-- `stream_v` (Composite.tcc:365-384). -/
def Comp.stream (c : Comp) (averages : List ℝ) : List String := (c.parts.foldl (streamLambda averages) (-1, [])).2

/-- The contribution of a component to the Hamiltonian (Composite.tcc:180-187). -/
noncomputable def contribution (r : ℕ) (lb ub : Idx) (t t0 : ℝ) (psi dpsidt : Arr ℂ) (p : Part) : Arr ℂ :=
  match p.ha with
  | none => dpsidt
  | some ha => Slice.forEachSlice₂ r p.axes lb ub (slices r p.axes lb ub) (ha t t0) psi dpsidt

/-- `addContribution_v` (Composite.tcc:178-197). -/
noncomputable def Comp.addContribution (c : Comp) (t t0 : ℝ) (psi dpsidt : Arr ℂ) : Arr ℂ :=
  c.parts.foldl (contribution c.r c.lb c.ub t t0 psi) dpsidt

/-- The exact propagation by a component (Composite.tcc:158). -/
noncomputable def propagation (r : ℕ) (lb ub : Idx) (t t0 : ℝ) (psi : Arr ℂ) (p : Part) : Arr ℂ :=
  match p.ex with
  | none => psi
  | some ex => Slice.forEachSlice r p.axes lb ub (slices r p.axes lb ub) (ex t t0) psi

/-- `actWithU_v` (Composite.tcc:156-169). -/
noncomputable def Comp.actWithU (c : Comp) (t t0 : ℝ) (psi : Arr ℂ) : Arr ℂ := c.parts.foldl (propagation c.r c.lb c.ub t t0) psi

/-- `QuantumSystemWrapper::applicableInMaster` (Structure.h:138). -/
def applicableInMaster (p : Part) : Bool := match p.ex with | none => true | some _ => p.applicable

/-- `applicableInMaster_v` (Composite.tcc:137-152). -/
def Comp.applicableInMaster (c : Comp) : Bool :=
  let frees := c.frees.mapIdx (fun idx p => { p with axes := [idx] })
  let res := frees.foldl (fun res p => res && Composite.applicableInMaster p) true
  if res then c.acts.foldl (fun s act => s && Composite.applicableInMaster act) res else res

/-! ## `BinarySystem` -/

/-- A binary system: the two frees and the interaction (their `axes` are not used). -/
structure Bin where
  lb : Idx
  ub : Idx
  free0 : Part
  free1 : Part
  ia : Part

/-- `binary::streamKey` (BinarySystem.cc:120-127). -/
def Bin.streamKey (b : Bin) (tag : Tag) (i : ℕ) : List KeyItem × ℕ :=
  let st := ([KeyItem.title "Binary system"], i)
  let st := Composite.streamKey tag st b.free0
  let st := Composite.streamKey tag st b.free1
  Composite.streamKey tag st b.ia

/-- `binary::nAvr` (BinarySystem.cc:132-136). -/
def Bin.nAvr (b : Bin) (tag : Tag) : ℕ := Composite.nAvr tag b.free0 + Composite.nAvr tag b.free1 + Composite.nAvr tag b.ia

/-- `binary::average` (BinarySystem.cc:141-156): `copy(a01,copy(a1,copy(a0,a.begin())))` fills the array of `numberAvr` elements. -/
noncomputable def Bin.average (b : Bin) (tag : Tag) (t : ℝ) (ldo : Ldo) : List ℝ :=
  let a0 := (PTrace.partialTrace (slices 2 [0] b.lb b.ub) (fun d => Composite.average tag b.free0 t (ldo.slice 2 [0] d))).getD []
  let a1 := (PTrace.partialTrace (slices 2 [1] b.lb b.ub) (fun d => Composite.average tag b.free1 t (ldo.slice 2 [1] d))).getD []
  let a01 := Composite.average tag b.ia t ldo.mat
  concatenate [a0, a1, a01] (List.replicate (b.nAvr tag) 0)

/-- The control flow shared by `actWithJ_v` and `actWithSuperoperator_v` (BinarySystem.cc:217-239, 242-273): `act0`, `act1`, `act01` perform the jump of the given number of the
components. `n` is assigned in the condition of the second `if` only when `li1` is not null. -/
def binaryDispatch {β : Type*} (free0 free1 ia : Part) (act0 act1 act01 : Li → ℕ → β → β) (i : ℕ) (x : β) : β :=
  let n := nAvr .li free0
  if h0 : free0.li.isSome ∧ i < n then act0 (free0.li.get h0.1) i x
  else
    let i := sub64 i n
    if h1 : free1.li.isSome ∧ i < nAvr .li free1 then act1 (free1.li.get h1.1) i x
    else
      let n := if free1.li.isSome then nAvr .li free1 else n
      let i := sub64 i n
      if i < nAvr .li ia then
        match ia.li with
        | none => x
        | some li => act01 li i x
      else x

/-- `Liouvillean::actWithJ_v` (BinarySystem.cc:217-239). -/
noncomputable def Bin.actWithJ (b : Bin) (t : ℝ) (psi : Arr ℂ) (i : ℕ) : Arr ℂ :=
  binaryDispatch b.free0 b.free1 b.ia
    (fun li i psi => Slice.forEachSlice 2 [0] b.lb b.ub (slices 2 [0] b.lb b.ub) (li.actWithJ t i) psi)
    (fun li i psi => Slice.forEachSlice 2 [1] b.lb b.ub (slices 2 [1] b.lb b.ub) (li.actWithJ t i) psi)
    (fun li i psi => li.actWithJ t i psi) i psi

/-- `Liouvillean::actWithSuperoperator_v` (BinarySystem.cc:242-273). -/
noncomputable def Bin.actWithSuperoperator (b : Bin) (t : ℝ) (rho drhodt : Arr ℂ) (i : ℕ) : Arr ℂ :=
  binaryDispatch b.free0 b.free1 b.ia
    (fun li i drhodt => Slice.forEachSlice₂ 4 [0, 2] (b.lb ++ b.lb) (b.ub ++ b.ub) (slices 4 [0, 2] (b.lb ++ b.lb) (b.ub ++ b.ub)) (li.actWithSuperoperator t i) rho drhodt)
    (fun li i drhodt => Slice.forEachSlice₂ 4 [1, 3] (b.lb ++ b.lb) (b.ub ++ b.ub) (slices 4 [1, 3] (b.lb ++ b.lb) (b.ub ++ b.ub)) (li.actWithSuperoperator t i) rho drhodt)
    (fun li i drhodt => li.actWithSuperoperator t i rho drhodt) i drhodt

/-- `PROCESS_Range` of `process_v` (BinarySystem.cc:81, Structure.h:151). -/
def processRange (p : Part) (averages : List ℝ) (a e : Int) : List ℝ :=
  match p.av with | none => averages | some av => writeRange averages a e (av.process (readRange averages a e))

/-- `PROCESS_Range` of `stream_v` (BinarySystem.cc:98). -/
def streamRange (p : Part) (averages : List ℝ) (a e : Int) : List String :=
  match p.av with | none => [] | some av => av.stream (readRange averages a e)

/-- `SUCCESSIVE_Ranges` of `process_v` (BinarySystem.cc:66-86). -/
def Bin.process (b : Bin) (averages : List ℝ) : List ℝ :=
  let l : Int := -1
  let u := l + Composite.nAvr .av b.free0
  let averages := if u > l then processRange b.free0 averages (l + 1) u else averages
  let l := u + Composite.nAvr .av b.free1
  let averages := if l > u then processRange b.free1 averages (u + 1) l else averages
  let u := l + Composite.nAvr .av b.ia
  if u > l then processRange b.ia averages (l + 1) u else averages

/-- `SUCCESSIVE_Ranges` of `stream_v` (BinarySystem.cc:66-76, 89-105). -/
def Bin.stream (b : Bin) (averages : List ℝ) : List String :=
  let l : Int := -1
  let u := l + Composite.nAvr .av b.free0
  let s0 := if u > l then streamRange b.free0 averages (l + 1) u else []
  let l := u + Composite.nAvr .av b.free1
  let s1 := if l > u then streamRange b.free1 averages (u + 1) l else []
  let u := l + Composite.nAvr .av b.ia
  let s2 := if u > l then streamRange b.ia averages (l + 1) u else []
  s0 ++ s1 ++ s2

/-- `Hamiltonian::addContribution_v` (BinarySystem.cc:194-207). -/
noncomputable def Bin.addContribution (b : Bin) (t t0 : ℝ) (psi dpsidt : Arr ℂ) : Arr ℂ :=
  let dpsidt := contribution 2 b.lb b.ub t t0 psi dpsidt { b.free0 with axes := [0] }
  let dpsidt := contribution 2 b.lb b.ub t t0 psi dpsidt { b.free1 with axes := [1] }
  match b.ia.ha with | none => dpsidt | some ha => ha t t0 psi dpsidt

/-- `Exact::actWithU_v` (BinarySystem.cc:177-184). -/
noncomputable def Bin.actWithU (b : Bin) (t t0 : ℝ) (psi : Arr ℂ) : Arr ℂ :=
  let psi := propagation 2 b.lb b.ub t t0 psi { b.free0 with axes := [0] }
  let psi := propagation 2 b.lb b.ub t t0 psi { b.free1 with axes := [1] }
  match b.ia.ex with | none => psi | some ex => ex t t0 psi

/-- `Exact::applicableInMaster_v` (BinarySystem.cc:170-173). -/
def Bin.applicableInMaster (b : Bin) : Bool :=
  Composite.applicableInMaster b.free0 && Composite.applicableInMaster b.free1 && Composite.applicableInMaster b.ia

/-! ## Construction of a `Composite` -/

/-- An interaction with its axes (`composite::_<…>`) and the frees it couples (`getFrees()`), given by their identity (the pointers). -/
structure Act where
  axes : List ℕ
  frees : List ℕ

/-- The inner loop of `fillFrees` (Composite.tcc:50-57): `i` is the ordinal of the leg. `none` in `res`: no free yet on that axis; the exception carries `idx` and `i`. -/
def fillAct (frees : List ℕ) : List ℕ → ℕ → (ℕ → Option ℕ) → Except (ℕ × ℕ) (ℕ → Option ℕ)
  | [], _, res => .ok res
  | idx :: axes, i, res =>
    match res idx with
    | some f => if f ≠ frees.getD i 0 then .error (idx, i) else fillAct frees axes (i + 1) res
    | none => fillAct frees axes (i + 1) (Function.update res idx (some (frees.getD i 0)))

/-- `fillFrees` (Composite.tcc:43-61). -/
def fillFrees : List Act → (ℕ → Option ℕ) → Except (ℕ × ℕ) (ℕ → Option ℕ)
  | [], res => .ok res
  | act :: acts, res =>
    match fillAct act.frees act.axes 0 res with
    | .error e => .error e
    | .ok res => fillFrees acts res

/-- `MaxRank_v<VA>+1` (Composite.h, details_TMP_helpers.h:17-21). -/
def rank (acts : List Act) : ℕ := (acts.map (fun act => act.axes.foldl max 0)).foldl max 0 + 1

/-- `CheckMeta_v` (details_TMP_helpers.h:26-40): every ordinal below the rank is contained by the axes of some interaction. -/
def checkMeta (acts : List Act) : Bool := (List.range (rank acts)).all fun idx => acts.any fun act => act.axes.contains idx

/-- What can go wrong: `static_assert` or the `CompositeConsistencyException`. -/
inductive MakeError where
  | notConsistent
  | conflict (idx i : ℕ)

/-- The construction: the frees on the axes and the dimensions (`fillDimensions`, Composite.tcc:64-75); `dimension` is that of a free. -/
def make (dimension : ℕ → ℕ) (acts : List Act) : Except MakeError (List ℕ × List ℕ) :=
  if checkMeta acts then
    match fillFrees acts (fun _ => none) with
    | .error e => .error (.conflict e.1 e.2)
    | .ok res =>
      let frees := (List.range (rank acts)).map fun idx => (res idx).getD 0
      .ok (frees, frees.map dimension)
  else .error .notConsistent

/-- The characteristics (Exact, Hamiltonian, Liouvillean) of the composite made from components with the given characteristics (Composite.tcc:403-423). -/
def characteristics (frees acts : List (Bool × Bool × Bool)) : Bool × Bool × Bool :=
  let or3 (a b : Bool × Bool × Bool) := (a.1 || b.1, a.2.1 || b.2.1, a.2.2 || b.2.2)
  acts.foldl or3 (frees.foldl or3 (false, false, false))

/-! ## Frequencies -/

/-- `absReal` (DynamicsBase.cc:35). -/
noncomputable def absReal (p : ℝ × ℝ) : ℝ := |p.1 * p.2|

/-- `absComplex` (DynamicsBase.cc:36). -/
noncomputable def absComplex (p : ℂ × ℝ) : ℝ := ‖p.1 * p.2‖

/-- `boost::max_element` with the comparison of `f` (first maximal element) for a nonempty sequence. -/
noncomputable def maxElement {α : Type*} (f : α → ℝ) (a : α) (as : List α) : α := as.foldl (fun m x => if f m < f x then x else m) a

/-- `DynamicsBase::highestFrequency` (DynamicsBase.cc:49-66). The frequencies are (value, multiplier) pairs. -/
noncomputable def highestFrequency (realFreqs : List (ℝ × ℝ)) (complexFreqs : List (ℂ × ℝ)) : ℝ :=
  max (match realFreqs with | [] => 0 | a :: as => absReal (maxElement absReal a as))
    (match complexFreqs with | [] => 0 | a :: as => absComplex (maxElement absComplex a as))

/-- `binary::Base::highestFrequency_v` (BinarySystem.cc:47-51). -/
noncomputable def binaryHighestFrequency (ia free0 free1 : ℝ) : ℝ := max ia (max free0 free1)

/-- `composite::Base::highestFrequency_v` (Composite.tcc:117-127): the frequencies of the frees (nonempty), and of the interactions, which are not used. -/
noncomputable def compositeHighestFrequency (free : ℝ) (frees _acts : List ℝ) : ℝ := maxElement id free frees

/-- `initialTimeStep` (Trajectory.h:126). -/
noncomputable def initialTimeStep (highestFrequency : ℝ) : ℝ := 1 / (10 * highestFrequency)

end CppQED.Composite
