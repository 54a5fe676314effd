import Verif.Model.PyText
import Mathlib.Data.Complex.Basic
import Mathlib.Analysis.Complex.Norm

/-!
# Model of the test driver

Source: `/repo/Testing/testdriver.py`.

Text is `List Char`, a section of the configuration is the list of its keys and values in the order of their insertion, as `configparser` keeps them. An exception and `sys.exit` with a message or with a number other than zero are both
`Outcome.throw`: the test fails. The configurations have no section `DEFAULT` (there is none in `/repo/Testing`), and the interpolation of `%` in values is not modelled. The limit of Python on the depth of recursion is the parameter
`limit`. The scripts that are run, the files, and the functions of `numpy` and `scipy` that integrate and interpolate are parameters; `genfromtxt` and `allclose` are modelled as documented, without infinite numbers. Logging and plots are
not modelled.
-/

namespace CppQED.TestDriver
open CppQED.Tridiag CppQED.PyText

/-! ## The configuration -/

/-- A section, as its keys and values. -/
abbrev Section := List (Str × Str)

/-- The state of the `ConfigParser`. -/
abbrev Config := Str → Option Section

/-- `ConfigParser.optionxform`: names of keys are in lower case. -/
def lower (s : Str) : Str := s.map Char.toLower

/-- `ConfigParser.has_option`, and the value: `false` also if there is no such section. -/
def option (cp : Config) (s k : Str) : Option Str := (cp s).bind fun sec => sec.lookup (lower k)

/-- `ConfigParser.get`: exception if there is no such section or key. -/
def get (cp : Config) (s k : Str) : Outcome Str := match option cp s k with
  | none => .throw
  | some v => .ok v

/-- Setting a key in a section. -/
def setKey (sec : Section) (k v : Str) : Section :=
  if (sec.lookup k).isSome then sec.map fun e => if e.1 = k then (k, v) else e else sec ++ [(k, v)]

/-- `ConfigParser.set`, on a section that exists. -/
def set (cp : Config) (s k v : Str) : Config := Function.update cp s ((cp s).map fun sec => setKey sec (lower k) v)

/-- `ConfigParser.remove_option`, on a section that exists. -/
def remove (cp : Config) (s k : Str) : Config := Function.update cp s ((cp s).map fun sec => sec.filter fun e => e.1 ≠ lower k)

/-- `k.endswith('_local')`. -/
def isLocal (k : Str) : Bool := "_local".toList.isSuffixOf k

/-- One round of the loop of `_import_section` (testdriver.py:136-137). -/
def importItem (s : Str) (cp : Config) (item : Str × Str) : Config :=
  if (option cp s item.1).isNone && !isLocal item.1 then set cp s item.1 item.2 else cp

/-- `OptionsManager._import_section` (testdriver.py:130-138). -/
def importSection : ℕ → Config → Str → Outcome Config
  | 0, _, _ => .throw
  | limit + 1, cp, s => match option cp s "import".toList with
    | none => .ok cp
    | some t => (importSection limit cp t).bind fun cp => match cp t with
      | none => .throw
      | some items => .ok (remove (items.foldl (importItem s) cp) s "import".toList)

/-- `OptionsManager.get_option` (testdriver.py:140-157); `none` is `None`. The state of the `ConfigParser` afterwards is also returned. -/
def getOption (limit : ℕ) (cp : Config) (s k : Str) (default : Option Str := none) (required : Bool := false) : Outcome (Option Str × Config) :=
  (importSection limit cp s).bind fun cp => match option cp s k with
    | some v => .ok (some v, cp)
    | none => if required then .throw else .ok (default, cp)

/-! ## Output files and run modes -/

/-- The options on the command line of the test driver, and the directories in the section `Setup` (testdriver.py:116-128, 180-189, 808-811). -/
structure Setup where
  test : Str
  script : Str
  outputdir : Str
  expecteddir : Str
  limit : ℕ

/-- `os.path.join`, of a directory without slash at the end and a relative path. -/
def join (a b : Str) : Str := a ++ '/' :: b

/-- `s.split(',')`. -/
def commas (s : Str) : List Str := s.splitOn ','

/-- `OutputManager.runmodes` (testdriver.py:191-198). -/
def runmodes (o : Setup) (cp : Config) (s : Str) : Outcome (List Str × Config) :=
  (getOption o.limit cp s "runmodes".toList (some "generic".toList)).bind fun (v, cp) => .ok (commas (v.getD []), cp)

/-- `OutputManager._filter_runmodes` (testdriver.py:200-205). -/
def filterRunmodes (o : Setup) (cp : Config) (s : Str) : Outcome (List Str × Config) :=
  (getOption o.limit cp s ("runmodes_".toList ++ o.test ++ "_local".toList)).bind fun (f, cp) => (runmodes o cp s).bind fun (modes, cp) =>
    .ok (match f with
      | none => modes
      | some f => modes.filter fun m => m ∈ commas f, cp)

/-- The name of the file without the directory (testdriver.py:217-221). -/
def baseName (runmode s : Str) (statefile : Bool) : Str :=
  (if runmode = "generic".toList then s else s ++ '_' :: runmode) ++ if statefile then ".state".toList else []

/-- `OutputManager.output` (testdriver.py:207-222). -/
def output (o : Setup) (runmode s : Str) (statefile : Bool) : Str := join o.outputdir (baseName runmode s statefile)

/-! ## Runner -/

/-- The order of strings in Python. -/
def leStr : Str → Str → Bool
  | [], _ => true
  | _ :: _, [] => false
  | a :: s, b :: t => a.toNat < b.toNat || (a == b && leStr s t)

/-- `_extend_opts` (testdriver.py:281-283): what it appends. -/
def extendOpts (cp : Config) (s pref : Str) : Outcome (List Str) := match cp s with
  | none => .throw
  | some sec => .ok ((((sec.map (·.1)).filter fun k => pref.isPrefixOf k).mergeSort leStr).flatMap fun k => split ((option cp s k).getD []))

/-- `_build_commandline` (testdriver.py:285-300). -/
def commandLine (o : Setup) (cp : Config) (runmode : Str) (extra : List Str) (interpreter : Option Str) : Outcome (List Str) :=
  (extendOpts cp "Setup".toList "opts".toList).bind fun a => (extendOpts cp o.test "opts".toList).bind fun b => (extendOpts cp o.test runmode).bind fun c =>
    .ok (interpreter.toList ++ [o.script] ++ extra ++ a ++ b ++ c ++ (if runmode = "generic".toList then [] else ["--evol".toList, runmode]) ++ ["--o".toList, output o runmode o.test false])

/-- What the operating system does with a world `W` (the files): it deletes a file, and it runs a command, with its return code. -/
structure System (W : Type) where
  delete : Str → W → W
  call : List Str → W → ℕ × W

/-- `OutputManager.clean` (testdriver.py:224-230). -/
def clean {W : Type} (sys : System W) (o : Setup) (runmode : Str) (w : W) : W := sys.delete (output o runmode o.test true) (sys.delete (output o runmode o.test false) w)

/-- The loop of `Runner.run` (testdriver.py:254-259): `inl` is `sys.exit(ret)`. -/
def runLoop {W : Type} (sys : System W) (o : Setup) (cp : Config) (cleaning : Bool) (extra : List Str) (interpreter : Option Str) : List Str → W → Outcome ((ℕ × W) ⊕ W)
  | [], w => .ok (.inr w)
  | m :: ms, w =>
    let w := if cleaning then clean sys o m w else w
    (commandLine o cp m extra interpreter).bind fun c =>
      let r := sys.call c w
      if r.1 = 0 then runLoop sys o cp cleaning extra interpreter ms r.2 else .ok (.inl r)

/-- `Runner.run` (testdriver.py:242-259). -/
def run {W : Type} (sys : System W) (o : Setup) (cp : Config) (cleaning : Bool) (extra : List Str) (interpreter : Option Str) (w : W) : Outcome (((ℕ × W) ⊕ W) × Config) :=
  (runmodes o cp o.test).bind fun (modes, cp) => (runLoop sys o cp cleaning extra interpreter modes w).bind fun r => .ok (r, cp)

/-- `GenericContinuer.continued_run` (testdriver.py:439-447) with `Runner.run`. -/
def continuedRun {W : Type} (sys : System W) (o : Setup) (cp : Config) (interpreter : Option Str) (w : W) : Outcome (((ℕ × W) ⊕ W) × Config) :=
  (getOption o.limit cp o.test "firstrun".toList (some [])).bind fun (f, cp) => (run sys o cp true (split (f.getD [])) interpreter w).bind fun r => match r with
    | (.inl e, cp) => .ok (.inl e, cp)
    | (.inr w, cp) => (getOption o.limit cp o.test "secondrun".toList (some [])).bind fun (s, cp) => run sys o cp false (split (s.getD [])) interpreter w

/-! ## Arrays -/

/-- An array of numpy, with elements in `E` or NaN (`none`). -/
structure Arr (E : Type) where
  shape : List ℕ
  val : List ℕ → Option E

/-- The shape to which two arrays are broadcast, with the axes in reverse order. -/
def bshape : List ℕ → List ℕ → Option (List ℕ)
  | [], t => some t
  | s, [] => some s
  | m :: s, n :: t => (bshape s t).bind fun r => if m = n then some (m :: r) else if m = 1 then some (n :: r) else if n = 1 then some (m :: r) else none

/-- The index of the element that stands at a place of the array after broadcasting, axes in reverse order. -/
def pick (shape i : List ℕ) : List ℕ := List.zipWith (fun m j => if m = 1 then 0 else j) shape i

/-- The element of an array at a place of the shape to which it is broadcast. -/
def Arr.at {E : Type} (a : Arr E) (i : List ℕ) : Option E := a.val (pick a.shape.reverse i.reverse).reverse

/-- `numpy.isclose` with the defaults `rtol=1e-5`, `atol=1e-8`. -/
def isClose {E : Type} [NormedAddCommGroup E] : Option E → Option E → Prop
  | some x, some y => ‖x - y‖ ≤ 1e-8 + 1e-5 * ‖y‖
  | _, _ => False

open Classical in
/-- `numpy.allclose`: exception if the arrays cannot be broadcast. -/
noncomputable def allclose {E : Type} [NormedAddCommGroup E] (a b : Arr E) : Outcome Bool := match bshape a.shape.reverse b.shape.reverse with
  | none => .throw
  | some sh => .ok (decide (∀ i, List.Forall₂ (· < ·) i sh.reverse → isClose (a.at i) (b.at i)))

/-- The array with the result of `squeeze`. -/
def ofLoaded {E : Type} : Loaded (Option E) → Arr E
  | .table rows => ⟨[rows.length, (rows.headD []).length], fun i => ((rows.getD (i.getD 0 0) []).getD (i.getD 1 0) none)⟩
  | .vector v => ⟨[v.length], fun i => v.getD (i.getD 0 0) none⟩
  | .scalar x => ⟨[], fun _ => x⟩

/-- `numpy.genfromtxt` with the defaults: comments begin with `#`, lines without any word are skipped, words that are not numbers are NaN, exception if the rows are not of the same length; axes of extent one are removed. -/
def genfromtxt {E : Type} (float : Str → Option E) (s : Str) : Outcome (Arr E) :=
  let rows := (((fileLines s).map fun l => split (cut (some '#') l)).filter (· ≠ [])).map fun r => r.map float
  if rows.all fun r => r.length == (rows.headD []).length then .ok (ofLoaded (squeeze rows)) else .throw

/-! ## Verifier -/

/-- What is read of the files: the text of the trajectories, `none` if there is no such file, and the outcome of `io.read` on the state files, as the array of the states and that of the times. -/
structure Files where
  text : Str → Option Str
  float : Str → Option ℝ
  state : Str → Outcome (Arr ℂ × Arr ℝ)

/-- `load_sv` without format (testdriver.py:65-66). -/
def loadSv (f : Files) (name : Str) : Outcome (Arr ℝ) := match f.text name with
  | none => .throw
  | some s => genfromtxt f.float s

/-- `_verify_ev` (testdriver.py:398-400). -/
noncomputable def verifyEv (f : Files) (this other : Str) : Outcome Unit :=
  (loadSv f this).bind fun a => (loadSv f other).bind fun b => (allclose a b).bind fun c => if c then .ok () else .throw

/-- `_verify_state` (testdriver.py:401-405): with `and`, the times are only compared if the states agree. -/
noncomputable def verifyState (f : Files) (this other : Str) : Outcome Unit :=
  (f.state this).bind fun a => (f.state other).bind fun b => (allclose a.1 b.1).bind fun c =>
    if c then (allclose a.2 b.2).bind fun d => if d then .ok () else .throw else .throw

/-- `_otherOutput` (testdriver.py:389-393); the base name of the output is what follows the last slash, which is `baseName` as the sections have no slash in their names. -/
def otherOutput (o : Setup) (this : Str) (other : Option Str) (runmode : Str) (statefile : Bool) : Str := match other with
  | none => join o.expecteddir (baseName runmode this statefile)
  | some other => output o runmode other statefile

/-- The loop of `_verify_full` (testdriver.py:383-386). -/
noncomputable def verifyLoop (f : Files) (o : Setup) (this : Str) (other : Option Str) : List Str → Outcome Unit
  | [] => .ok ()
  | m :: ms => (verifyEv f (output o m this false) (otherOutput o this other m false)).bind fun _ =>
      (verifyState f (output o m this true) (otherOutput o this other m true)).bind fun _ => verifyLoop f o this other ms

/-- `Verifier.__init__` and `Verifier.run` (testdriver.py:365-386): `_verify_outcome` is called without its two arguments, a `TypeError`; with any other value of `verify`, nothing is done. -/
noncomputable def verify (f : Files) (o : Setup) (cp : Config) : Outcome Config :=
  (getOption o.limit cp o.test "this".toList (some o.test)).bind fun (this, cp) => (getOption o.limit cp o.test "other".toList).bind fun (other, cp) =>
    (getOption o.limit cp o.test "verify".toList).bind fun (mode, cp) =>
      if mode = none ∨ mode = some "full".toList then
        (runmodes o cp (this.getD [])).bind fun (modes, cp) => (verifyLoop f o (this.getD []) other modes).bind fun _ => .ok cp
      else if mode = some "outcome".toList then .throw
      else .ok cp

/-! ## CompileTarget -/

/-- `error in std` (testdriver.py:546) where `error` is a string and `std` the bytes from a pipe opened without `text`: a `TypeError` in Python 3. -/
def strInBytes (_error : Str) (_std : List UInt8) : Outcome Bool := .throw

/-- What the compilation of a target gives: return code, standard output, standard error. -/
abbrev Build := Str → ℕ × List UInt8 × List UInt8

/-- The loop over the dependencies (testdriver.py:530-535). -/
def buildDeps (build : Build) : List Str → Outcome Unit
  | [] => .ok ()
  | d :: ds => if (build d).1 = 0 then buildDeps build ds else .throw

/-- `CompileTarget.run` (testdriver.py:521-549). -/
def compileTarget (build : Build) (o : Setup) (cp : Config) : Outcome Config :=
  (getOption o.limit cp o.test "error".toList).bind fun (error, cp) => (getOption o.limit cp o.test "dependencies".toList (some [])).bind fun (deps, cp) =>
    (buildDeps build (split (deps.getD []))).bind fun _ =>
      let r := build o.script
      match error with
      | none => if r.1 = 0 then .ok cp else .throw
      | some e =>
        if r.1 = 0 then .throw
        else (strInBytes e r.2.1).bind fun a => if a then .ok cp else (strInBytes e r.2.2).bind fun b => if b then .ok cp else .throw

/-! ## Comparers -/

/-- `final_temperature` (testdriver.py:619-625) of the last state. -/
noncomputable def finalTemperature (nTh : ℝ) {d : ℕ} (state : Matrix (Fin d) (Fin d) ℂ) : ℝ :=
  Real.sqrt (∑ i, ∑ j, ‖state i j - if i = j then ((nTh ^ (i : ℕ) / (1 + 4) ^ ((i : ℕ) + 1) : ℝ) : ℂ) else 0‖ ^ 2)

/-- The loop over the run modes of `StateComparer.run` (testdriver.py:655-664), `true` if there was no failure; `measure` is the function applied on the state file, an exception if it cannot be read; `float` as in Python. -/
noncomputable def stateLoop (o : Setup) (float : Str → Option ℝ) (measure : Str → Outcome ℝ) (traj : Str) : List Str → Config → Outcome (Bool × Config)
  | [], cp => .ok (true, cp)
  | m :: ms, cp => (measure (output o m traj true)).bind fun value =>
      (getOption o.limit cp traj ("epsilon_".toList ++ m ++ '_' :: o.test) none true).bind fun (e, cp) => match float (e.getD []) with
        | none => .throw
        | some eps => (stateLoop o float measure traj ms cp).bind fun (b, cp) => .ok (decide (value < eps) && b, cp)

/-- The loop over the trajectories (testdriver.py:654). -/
noncomputable def trajLoop (o : Setup) (one : Str → List Str → Config → Outcome (Bool × Config)) : List Str → Config → Outcome (Bool × Config)
  | [], cp => .ok (true, cp)
  | t :: ts, cp => (filterRunmodes o cp t).bind fun (modes, cp) => (one t modes cp).bind fun (a, cp) => (trajLoop o one ts cp).bind fun (b, cp) => .ok (a && b, cp)

/-- `StateComparer.run` (testdriver.py:648-665); `measure` gives the test function that `function` and `parameters` name. `ast.literal_eval` raises an exception on `None`, that is, if there is no key `parameters`. -/
noncomputable def stateComparer (o : Setup) (float : Str → Option ℝ) (measure : Str → Str → Str → Outcome ℝ) (cp : Config) : Outcome Config :=
  (getOption o.limit cp o.test "trajectories".toList none true).bind fun (t, cp) => (getOption o.limit cp o.test "function".toList none true).bind fun (f, cp) =>
    (getOption o.limit cp o.test "parameters".toList).bind fun (p, cp) => match p with
      | none => .throw
      | some p => (trajLoop o (stateLoop o float (measure (f.getD []) p)) (commas (t.getD [])) cp).bind fun (b, cp) => if b then .ok cp else .throw

/-- What `TrajectoryComparer` uses of numpy and scipy: `int` (only of nonnegative numbers: that numpy counts negative indices from the end is not modelled), `float`; the table in an output file with the given names of the postprocessing and the format (testdriver.py:65-69, 741); and the integral of the square of the difference of
two interpolated functions from the first to the last time of the second (testdriver.py:748-756), which is an exception if the first is not defined there. -/
structure Numerics where
  int : Str → Option ℕ
  float : Str → Option ℝ
  load : Str → Option Str → Option Str → Outcome (List (List ℝ))
  deviation : List (ℝ × ℝ) → List (ℝ × ℝ) → Outcome ℝ

/-- An integer in the configuration. -/
def Numerics.toInt (N : Numerics) (s : Str) : Outcome ℕ := match N.int s with
  | none => .throw
  | some n => .ok n

/-- `[f x for x in l]` with exceptions. -/
def mapOutcome {α β : Type} (f : α → Outcome β) : List α → Outcome (List β)
  | [] => .ok []
  | a :: as => (f a).bind fun b => (mapOutcome f as).bind fun bs => .ok (b :: bs)

/-- `_get_columns` (testdriver.py:726-727). -/
def getColumns (N : Numerics) (o : Setup) (cp : Config) (s : Str) : Outcome (List ℕ × Config) :=
  (getOption o.limit cp s ("columns_".toList ++ o.test) none true).bind fun (v, cp) => (mapOutcome N.toInt (commas (v.getD []))).bind fun c => .ok (c, cp)

/-- `result[int(start):]` and `result[:int(length)]` if the key is there (testdriver.py:742-743). -/
def sliced (N : Numerics) (slice : ℕ → List (List ℝ) → List (List ℝ)) (v : Option Str) (rows : List (List ℝ)) : Outcome (List (List ℝ)) := match v with
  | none => .ok rows
  | some v => (N.toInt v).bind fun n => .ok (slice n rows)

/-- Column `c` of a row, with the time (testdriver.py:744-745). -/
def column (c : ℕ) (row : List ℝ) : Outcome (ℝ × ℝ) := match row[0]?, row[c]? with
  | some t, some x => .ok (t, x)
  | _, _ => .throw

/-- `_get_data` (testdriver.py:735-746). -/
def getData (N : Numerics) (o : Setup) (cp : Config) (s runmode : Str) (n : ℕ) : Outcome (List (ℝ × ℝ) × Config) :=
  (getOption o.limit cp s "postprocess_local".toList).bind fun (post, cp) => (getOption o.limit cp s "format_local".toList).bind fun (format, cp) =>
    (getOption o.limit cp s ("length_".toList ++ o.test)).bind fun (length, cp) => (getOption o.limit cp s ("start_".toList ++ o.test)).bind fun (start, cp) =>
      (N.load (output o runmode s false) post format).bind fun rows => (sliced N List.drop start rows).bind fun rows => (sliced N List.take length rows).bind fun rows =>
        (getColumns N o cp s).bind fun (cols, cp) => match cols[n]? with
          | none => .throw
          | some c => (mapOutcome (column c) rows).bind fun data => .ok (data, cp)

/-- `TrajectoryComparer._get_reference` (testdriver.py:729-733). -/
def getReference (N : Numerics) (o : Setup) (cp : Config) (n : ℕ) : Outcome (List (ℝ × ℝ) × Config) :=
  (getOption o.limit cp o.test "reference".toList none true).bind fun (r, cp) => (runmodes o cp (r.getD [])).bind fun (modes, cp) => getData N o cp (r.getD []) (modes.headD []) n

/-- `_get_eps` (testdriver.py:723-724). -/
def getEps (N : Numerics) (o : Setup) (cp : Config) (s runmode : Str) (n : ℕ) : Outcome (ℝ × Config) :=
  (getOption o.limit cp s ("epsilon_".toList ++ runmode ++ '_' :: o.test) none true).bind fun (e, cp) => match (commas (e.getD []))[n]? with
    | none => .throw
    | some e => match N.float e with
      | none => .throw
      | some e => .ok (e, cp)

/-- The body of the innermost loop (testdriver.py:708-718), `true` if there was no failure. -/
noncomputable def compareColumn (N : Numerics) (o : Setup) (s runmode : Str) (n : ℕ) (cp : Config) : Outcome (Bool × Config) :=
  (getData N o cp s runmode n).bind fun (data, cp) => (getReference N o cp n).bind fun (ref, cp) => (getEps N o cp s runmode n).bind fun (eps, cp) =>
    (N.deviation ref data).bind fun d => .ok (decide (d < eps), cp)

/-- A loop that collects failures. -/
def collect {α : Type} (f : α → Config → Outcome (Bool × Config)) : List α → Config → Outcome (Bool × Config)
  | [], cp => .ok (true, cp)
  | a :: as, cp => (f a cp).bind fun (x, cp) => (collect f as cp).bind fun (y, cp) => .ok (x && y, cp)

/-- The loop over the run modes and the columns (testdriver.py:704-705). -/
noncomputable def compareModes (N : Numerics) (o : Setup) (s : Str) : List Str → Config → Outcome (Bool × Config) :=
  collect fun m cp => (getColumns N o cp s).bind fun (cols, cp) => collect (compareColumn N o s m) (List.range cols.length) cp

/-- `TrajectoryComparer.run` (testdriver.py:695-721). -/
noncomputable def trajectoryComparer (N : Numerics) (o : Setup) (cp : Config) : Outcome Config :=
  (getOption o.limit cp o.test "trajectories".toList none true).bind fun (t, cp) =>
    (trajLoop o (compareModes N o) (commas (t.getD [])) cp).bind fun (b, cp) => if b then .ok cp else .throw

end CppQED.TestDriver
