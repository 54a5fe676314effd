import Verif.Model.Tridiagonal

/-!
# The C++ that the generator of `apply` prints: syntax and meaning

Vocabulary for C164. Sources are declarations of ranges and statements that add products of slices; `source` is the text of such a program, and `exec` what it does to the array `dpsidt`.
-/

namespace CppQED.Spec.Cpp
open CppQED.Tridiag

/-- The variables of type `Range`: for each axis one without suffix, one with the suffix `l` and one with the suffix `h`. -/
inductive Suffix
  | none
  | l
  | h
  deriving DecidableEq

abbrev Var := ℕ × Suffix

/-- The initialisers: `(0,psi.ubound(i))`, `(0,psi.ubound(i)-int(K(k)))`, `(v+int(K(k)))`. -/
inductive Init
  | upTo (i : ℕ)
  | below (i k : ℕ)
  | moved (v : Var) (k : ℕ)

/-- `if (a(j).size()) dpsidt(D)+=a(j)(A)*psi(P);` -/
structure Stmt where
  j : ℕ
  D : List Var
  A : List Var
  P : List Var

structure Prog where
  decls : List (Var × Init)
  stmts : List Stmt

/-! ## Text -/

def var (v : Var) : String := "I" ++ toString v.1 ++ match v.2 with
  | .none => " "
  | .l => "l"
  | .h => "h"

def init : Init → String
  | .upTo i => "(0,psi.ubound(" ++ toString i ++ "))"
  | .below i k => "(0,psi.ubound(" ++ toString i ++ ")-int(K(" ++ toString k ++ ")))"
  | .moved v k => "(" ++ var v ++ "+int(K(" ++ toString k ++ ")))"

/-- Texts with a separator between them. -/
def sepBy (sep : String) : List String → String
  | [] => ""
  | [s] => s
  | s :: t :: l => s ++ sep ++ sepBy sep (t :: l)

def vars (l : List Var) : String := sepBy "," (l.map var)

def stmt (s : Stmt) : String := "  if (a(" ++ toString s.j ++ ").size()) dpsidt(" ++ vars s.D ++ ")+=a(" ++ toString s.j ++ ")(" ++ vars s.A ++ ")*psi(" ++ vars s.P ++ ");\n"

def stmts : List Stmt → String
  | [] => ""
  | s :: l => stmt s ++ stmts l

/-- The definition of the specialisation of `apply` for a rank, with `a` for the diagonals and `K` for the differences. -/
def source (rank : ℕ) (p : Prog) : String :=
  "#include \"Tridiagonal.h\"\n\n\nnamespace quantumoperator {\n\n\ntemplate<>\nvoid Tridiagonal<" ++ toString rank ++
  ">::apply(const StateVectorLow& psi, StateVectorLow& dpsidt) const\n{\n  using blitz::Range;\n  \n  const Diagonals & a=diagonals_  ;\n  const Dimensions& K=differences_;\n\n  Range" ++ "\n    " ++
  sepBy ",\n    " (p.decls.map fun d => var d.1 ++ init d.2) ++ ";\n\n" ++ stmts p.stmts ++ "\n}\n\n\n} // quantumoperator\n" ++ "\n"

/-! ## Meaning -/

/-- Ranges: the first element and the number of elements. -/
abbrev Env := Var → Option (ℕ × ℕ)

/-- The value of an initialiser; `none` if it refers to what does not exist. The extents of `psi` are those of the operator. -/
def Init.eval (T : Tri) (env : Env) : Init → Option (ℕ × ℕ)
  | .upTo i => do
    let N ← T.dims[i]?
    return (0, N)
  | .below i k => do
    let N ← T.dims[i]?
    let K ← T.diffs[k]?
    return (0, N - K)
  | .moved v k => do
    let r ← env v
    let K ← T.diffs[k]?
    return (r.1 + K, r.2)

/-- Declarations one after the other; a variable cannot be declared twice. -/
def declare (T : Tri) : List (Var × Init) → Env → Option Env
  | [], env => some env
  | (v, e) :: l, env => do
    let r ← e.eval T env
    if (env v).isSome then none else declare T l fun w => if w = v then some r else env w

/-- A list of subscripts, as many as the rank. -/
def subscripts (T : Tri) (env : Env) (l : List Var) : Option (List (ℕ × ℕ)) := if l.length = T.rank then l.mapM env else none

/-- The slices `dpsidt(D)`, `a(j)(A)` and `psi(P)` are combined element by element. -/
def Stmt.exec (T : Tri) (env : Env) (s : Stmt) (psi dpsidt : NIdx → ℂ) : Option (NIdx → ℂ) := do
  let D ← subscripts T env s.D
  let A ← subscripts T env s.A
  let P ← subscripts T env s.P
  if (T.diagonals s.j).size ≠ 0 then
    return fun i => if inRanges D i then dpsidt i + (T.diagonals s.j).val (shift D A i) * psi (shift D P i) else dpsidt i
  else return dpsidt

def execStmts (T : Tri) (env : Env) (psi : NIdx → ℂ) : List Stmt → (NIdx → ℂ) → Option (NIdx → ℂ)
  | [], d => some d
  | s :: l, d => do
    let d ← s.exec T env psi d
    execStmts T env psi l d

/-- What the program does to `dpsidt`; `none` if it does not compile. -/
def Prog.exec (T : Tri) (p : Prog) (psi dpsidt : NIdx → ℂ) : Option (NIdx → ℂ) := do
  let env ← declare T p.decls fun _ => none
  execStmts T env psi p.stmts dpsidt

end CppQED.Spec.Cpp
