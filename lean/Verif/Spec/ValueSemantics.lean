import Verif.Model.Aliasing

/-!
# Specification: variables as values

What a program means if every variable simply holds a value of its own, and which programs may be read that way: those which do not touch a variable again once its content has been moved
(or referenced) away.
-/

namespace CppQED.Alias.Spec

variable {V : Type*}

/-- The values of the variables, and their number. -/
abbrev Env (V : Type*) := (ℕ → V) × ℕ

/-- The meaning of a statement. -/
def run (e : Env V) : Stmt V → Env V
  | .declare v => (Function.update e.1 e.2 v, e.2 + 1)
  | .copy x => (Function.update e.1 e.2 (e.1 x), e.2 + 1)
  | .move x => (Function.update e.1 e.2 (e.1 x), e.2 + 1)
  | .assign x y => (Function.update e.1 x (e.1 y), e.2)
  | .moveAssign x y => (Function.update e.1 x (e.1 y), e.2)
  | .modify x f => (Function.update e.1 x (f (e.1 x)), e.2)
  | .combine x y f => (Function.update e.1 x (f (e.1 x) (e.1 y)), e.2)
  | .reference x y => (Function.update e.1 x (e.1 y), e.2)

/-- The meaning of a program. -/
def runAll (e : Env V) (p : List (Stmt V)) : Env V := p.foldl run e

/-- The variables that can be used after the statement, from those that can be used before it. `n`: the number of variables. -/
def after (live : Set ℕ) (n : ℕ) : Stmt V → Set ℕ
  | .declare _ | .copy _ => live ∪ {n}
  | .move x => (live \ {x}) ∪ {n}
  | .reference _ y => live \ {y}
  | _ => live

/-- The statement uses only such variables. -/
def allowed (live : Set ℕ) : Stmt V → Prop
  | .declare _ => True
  | .copy x | .move x | .modify x _ => x ∈ live
  | .assign x y | .moveAssign x y | .combine x y _ => x ∈ live ∧ y ∈ live
  | .reference x y => x ∈ live ∧ y ∈ live ∧ x ≠ y

/-- The number of variables after the statement. -/
def size (n : ℕ) : Stmt V → ℕ
  | .declare _ | .copy _ | .move _ => n + 1
  | _ => n

/-- Every statement of the program uses only variables that can be used; `final` are the variables that can be used in the end. -/
def WellUsed (final : Set ℕ) : Set ℕ → ℕ → List (Stmt V) → Prop
  | live, _, [] => final = live
  | live, n, c :: p => allowed live c ∧ WellUsed final (after live n c) (size n c) p

end CppQED.Alias.Spec
