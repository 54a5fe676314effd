import Verif.Spec.TestDriver
import Verif.Model.FunctionComparer

/-! # What a comparison of trajectories with functions means -/

namespace CppQED.TestDriver
open CppQED.Tridiag CppQED.PyText

/-- The functions that the key `reference_function` can name, of two parameters and the time. -/
inductive Law : Str → (ℝ → ℝ → ℝ → ℝ) → Prop
  | decay : Law "exponential".toList fun a l t => a * Real.exp (-l * t)
  | position : Law "FreeParticleX".toList fun x0 p0 t => x0 + 2 * p0 * t
  | spread : Law "FreeParticleVarX".toList fun dx0 dp0 t => Real.sqrt (dx0 + 4 * dp0 * t ^ 2)

/-- The two parameters of a column: of a list those in the entry with the number of the column, otherwise the same for all the columns. -/
inductive ParametersOf (n : ℕ) : Lit → ℝ → ℝ → Prop
  | same (a b : ℝ) : ParametersOf n (.tuple [.num a, .num b]) a b
  | entry (l : List Lit) (a b : ℝ) : l[n]? = some (.tuple [.num a, .num b]) → ParametersOf n (.list l) a b
  | listEntry (l : List Lit) (a b : ℝ) : l[n]? = some (.list [.num a, .num b]) → ParametersOf n (.list l) a b

/-- What has to hold for one column: its deviation from the law named in the section of the test, with the parameters in the section of the trajectory, is below the acceptable one. -/
def FollowsLaw (N : FunctionNumerics) (o : Setup) (cfg : Config) (s mode : Str) (n : ℕ) : Prop :=
  ∃ name law v p a b data eps d, val cfg o.test "reference_function".toList = some name ∧ Law name law ∧ val cfg s (lower ("parameters_".toList ++ o.test)) = some v ∧ N.literal v = .ok p ∧ ParametersOf n p a b ∧
    Data N.toNumerics o cfg s mode n data ∧ Eps N.toNumerics o cfg s mode n eps ∧ N.deviationFn (law a b) data = .ok d ∧ d < eps

end CppQED.TestDriver
