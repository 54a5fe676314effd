import Verif.Model.ParsGroups
import Verif.Spec.Pars

/-! Vocabulary for the groups of parameters: the names a registration occupies, and the value it makes available. -/

namespace CppQED.Spec
open Pars

/-- The names occupied by a registration with the suffix `mod`. -/
def itemNames (mod : Str) : Item → List Str
  | .title s => [s.toList ++ mod]
  | .param s => [s.toList ++ mod]
  | .plain s => [s.toList]
  | .switch s _ => [s.toList ++ mod, "no_".toList ++ s.toList ++ mod]

/-- The names occupied by a group. -/
def groupNames (g : List Item) (mod : Str) : List Str := g.flatMap (itemNames mod)

/-- The names occupied by a sequence of groups with their suffixes. -/
def jobNames (jobs : List (List Item × Str)) : List Str := jobs.flatMap fun j => groupNames j.1 j.2

/-- A registration makes the parameter `x` available with the value `w`. -/
def ItemGives {V : Type} (ty : String → (Str → Option (V × ℕ)) × V) (mod : Str) (i : Item) (x : Str) (w : Val V) : Prop := match i with
  | .title _ => False
  | .param s => x = s.toList ++ mod ∧ w = .typed (ty s).2
  | .plain s => x = s.toList ∧ w = .typed (ty s).2
  | .switch s v => x = s.toList ++ mod ∧ w = .bool v

end CppQED.Spec
