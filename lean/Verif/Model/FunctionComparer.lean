import Verif.Model.TestDriver

/-!
# Comparison of trajectories with functions

`FunctionComparer` and the functions it can name of Testing/testdriver.py.
-/

namespace CppQED.TestDriver
open CppQED.Tridiag CppQED.PyText

/-- What `ast.literal_eval` makes of the parameters: numbers, tuples and lists. Simplified: other literals (strings, dictionaries) do not occur. -/
inductive Lit where
  | num (x : ℝ)
  | tuple (l : List Lit)
  | list (l : List Lit)

/-- The arguments `*parameters` (testdriver.py:796): a number cannot be unpacked. -/
def Lit.unpack : Lit → Outcome (List Lit)
  | .num _ => .throw
  | .tuple l => .ok l
  | .list l => .ok l

/-- `parameters[n]` if it is a list (testdriver.py:795). -/
def Lit.ofColumn (n : ℕ) : Lit → Outcome Lit
  | .list l => match l[n]? with
    | none => .throw
    | some p => .ok p
  | p => .ok p

/-- `exponential` (testdriver.py:758-761), the function of the pair. -/
noncomputable def exponential (a l : ℝ) (t : ℝ) : ℝ := a * Real.exp (-l * t)

/-- `FreeParticleX` (testdriver.py:763-766). -/
def freeParticleX (x0 p0 : ℝ) (t : ℝ) : ℝ := x0 + 2 * p0 * t

/-- `FreeParticleVarX` (testdriver.py:768-771). Simplified: the root of a negative number is zero, not NaN. -/
noncomputable def freeParticleVarX (dx0 dp0 : ℝ) (t : ℝ) : ℝ := Real.sqrt (dx0 + 4 * dp0 * t ^ 2)

/-- `globals()[name]` (testdriver.py:792). Simplified: the names which are not those of one of the three functions raise an exception here; in the code other global names may do so only when they are called or when
what they return is unpacked. -/
noncomputable def globalFunction (name : Str) : Outcome (ℝ → ℝ → ℝ → ℝ) :=
  if name = "exponential".toList then .ok exponential
  else if name = "FreeParticleX".toList then .ok freeParticleX
  else if name = "FreeParticleVarX".toList then .ok freeParticleVarX
  else .throw

/-- The call `reference(*parameters)` (testdriver.py:796): all the functions have two parameters. Simplified: that they are numbers is checked here, in the code only when the function is evaluated. -/
def call (f : ℝ → ℝ → ℝ → ℝ) : List Lit → Outcome (ℝ → ℝ)
  | [.num a, .num b] => .ok (f a b)
  | _ => .throw

/-- What the comparer uses of Python, numpy and scipy besides that of `TrajectoryComparer`: `ast.literal_eval`, and the integral of the square of the difference of a function from the interpolated data from the first to the last
time of the data (testdriver.py:751-756). -/
structure FunctionNumerics extends Numerics where
  literal : Str → Outcome Lit
  deviationFn : (ℝ → ℝ) → List (ℝ × ℝ) → Outcome ℝ

/-- The parameters in the configuration, `()` if there are none (testdriver.py:794). -/
def parametersIn (N : FunctionNumerics) : Option Str → Outcome Lit
  | none => .ok (.tuple [])
  | some v => N.literal v

/-- `FunctionComparer._get_reference` (testdriver.py:791-796), without the label. -/
noncomputable def functionReference (N : FunctionNumerics) (o : Setup) (cp : Config) (s : Str) (n : ℕ) : Outcome ((ℝ → ℝ) × Config) :=
  (getOption o.limit cp o.test "reference_function".toList none true).bind fun (name, cp) => (globalFunction (name.getD [])).bind fun reference =>
    (getOption o.limit cp s ("parameters_".toList ++ o.test)).bind fun (v, cp) =>
      (parametersIn N v).bind fun parameters => (parameters.ofColumn n).bind fun parameters => parameters.unpack.bind fun args => (call reference args).bind fun f => .ok (f, cp)

/-- The body of the innermost loop (testdriver.py:708-718) with this reference. -/
noncomputable def compareFunction (N : FunctionNumerics) (o : Setup) (s runmode : Str) (n : ℕ) (cp : Config) : Outcome (Bool × Config) :=
  (getData N.toNumerics o cp s runmode n).bind fun (data, cp) => (functionReference N o cp s n).bind fun (ref, cp) => (getEps N.toNumerics o cp s runmode n).bind fun (eps, cp) =>
    (N.deviationFn ref data).bind fun d => .ok (decide (d < eps), cp)

/-- The loop over the run modes and the columns (testdriver.py:704-705). -/
noncomputable def compareFunctionModes (N : FunctionNumerics) (o : Setup) (s : Str) : List Str → Config → Outcome (Bool × Config) :=
  collect fun m cp => (getColumns N.toNumerics o cp s).bind fun (cols, cp) => collect (compareFunction N o s m) (List.range cols.length) cp

/-- `FunctionComparer.run`, inherited from `TrajectoryComparer` (testdriver.py:695-721). -/
noncomputable def functionComparer (N : FunctionNumerics) (o : Setup) (cp : Config) : Outcome Config :=
  (getOption o.limit cp o.test "trajectories".toList none true).bind fun (t, cp) =>
    (trajLoop o (compareFunctionModes N o) (commas (t.getD [])) cp).bind fun (b, cp) => if b then .ok cp else .throw

end CppQED.TestDriver
