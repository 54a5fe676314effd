import Mathlib.Data.Complex.Basic

/-! Specification of the flattened form of a Hermitian matrix. -/

namespace CppQED.Spec

/-- The pairs `(x,y)` of elements of a list, `x` standing before `y`, ordered by `x`, then by `y` (strict upper triangle, row by row). -/
def upperPairs {α : Type*} : List α → List (α × α)
  | [] => []
  | x :: xs => xs.map (fun y => (x, y)) ++ upperPairs xs

/-- The flattened matrix over the index list `L`: the diagonal (real parts), then – optionally – real and imaginary parts of the strict
upper triangle, row by row. -/
def flatten {α : Type*} (L : List α) (ρ : α → α → ℂ) (offDiagonals : Bool) : List ℝ :=
  L.map (fun i => (ρ i i).re) ++
    if offDiagonals then (upperPairs L).flatMap (fun p => [(ρ p.1 p.2).re, (ρ p.1 p.2).im]) else []

end CppQED.Spec
