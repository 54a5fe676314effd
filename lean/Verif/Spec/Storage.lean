import Verif.Model.Storage

/-!
# Value semantics: what the statements would do if every variable had its own data

Independent of the heap of the model: a variable is its dimensions and its elements, nothing is shared.
-/

namespace CppQED.Storage.Spec
open scoped ComplexConjugate

/-- The values of the variables. -/
abbrev Store := ℕ → Option (List ℕ × Data)

/-- The statements with value semantics: constructions and assignments give `x` the value of `y`, whether copying, moving or referencing. -/
noncomputable def eval (w : Store) : Stmt → Option Store
  | .declare x dims => some (Function.update w x (some (dims, List.replicate dims.prod 0)))
  | .copyInit x y => (w y).map fun v => Function.update w x (some v)
  | .moveInit x y => (w y).map fun v => Function.update w x (some v)
  | .view x y => (w y).map fun v => Function.update w x (some ([v.1.prod], v.2))
  | .reference x y => (w x).bind fun _ => (w y).map fun v => Function.update w x (some v)
  | .assign x y => (w x).bind fun u => (w y).bind fun v => if u.1 = v.1 then some (Function.update w x (some v)) else none
  | .plus x y => (w x).bind fun u => (w y).bind fun v => if u.1 = v.1 then some (Function.update w x (some (u.1, List.zipWith (· + ·) u.2 v.2))) else none
  | .minus x y => (w x).bind fun u => (w y).bind fun v => if u.1 = v.1 then some (Function.update w x (some (u.1, List.zipWith (· - ·) u.2 v.2))) else none
  | .update x f => (w x).bind fun u => if (f u.2).length = u.2.length then some (Function.update w x (some (u.1, f u.2))) else none
  | .product x y z => (w y).bind fun u => (w z).map fun v => Function.update w x (some (u.1 ++ v.1, u.2.flatMap fun a => v.2.map fun b => a * b))
  | .dyad x y => (w y).map fun u => Function.update w x (some (u.1 ++ u.1, u.2.flatMap fun a => u.2.map fun b => a * conj b))
  | .load x d => (w x).bind fun u => if d.length = u.1.prod then some (Function.update w x (some (u.1, d))) else none

/-- A program with value semantics. -/
noncomputable def evalAll : List Stmt → Store → Option Store
  | [], w => some w
  | c :: p, w => (eval w c).bind (evalAll p)

/-- The variables whose value matters for a statement. -/
def uses : Stmt → List ℕ
  | .declare _ _ => []
  | .copyInit _ y | .moveInit _ y | .view _ y | .dyad _ y => [y]
  | .reference x y | .assign x y | .plus x y | .minus x y => [x, y]
  | .update x _ | .load x _ => [x]
  | .product _ y z => [y, z]

/-- The variables which are constructed (or reseated) by a statement. -/
def defines : Stmt → List ℕ
  | .declare x _ | .copyInit x _ | .moveInit x _ | .view x _ | .reference x _ | .product x _ _ | .dyad x _ | .load x _ => [x]
  | .assign _ _ | .plus _ _ | .minus _ _ | .update _ _ => []

/-- The variables whose data are given away by a statement: moved from, or referenced. -/
def givesAway : Stmt → List ℕ
  | .moveInit _ y | .view _ y | .reference _ y => [y]
  | _ => []

/-- The variables that are not to be used after a statement, if those before are `dead`. -/
def deadAfter (dead : ℕ → Prop) (c : Stmt) (v : ℕ) : Prop := (dead v ∧ v ∉ defines c) ∨ v ∈ givesAway c

/-- The variables that are not to be used after a program. -/
def deadAfterAll (dead : ℕ → Prop) : List Stmt → ℕ → Prop
  | [] => dead
  | c :: p => deadAfterAll (deadAfter dead c) p

/-- What everybody is taught: once a variable was moved from, do not touch it until it gets constructed anew. -/
def Disciplined (dead : ℕ → Prop) : List Stmt → Prop
  | [] => True
  | c :: p => (∀ v ∈ uses c, ¬dead v) ∧ Disciplined (deadAfter dead c) p

/-- A statement has nothing to do with `x`. -/
def Avoids (x : ℕ) (c : Stmt) : Prop := x ∉ uses c ∧ x ∉ defines c

/-- The data of `x` are shared only by variables among `A`. -/
def SharedWithin (A : ℕ → Prop) (s : State) (x : ℕ) : Prop := ∀ v h hv, ¬A v → s.var x = some h → s.var v = some hv → hv.loc ≠ h.loc

/-- Reachable states: those produced by a program from nothing. -/
def Reachable (s : State) : Prop := ∃ p, run p .empty = some s

end CppQED.Storage.Spec
