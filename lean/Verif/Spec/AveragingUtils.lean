import Verif.Spec.Deflate

/-! Specification of the columns of a streamed reduced density operator. -/

namespace CppQED.Spec

/-- What a column contains: a diagonal element, the real part or the imaginary part of an off-diagonal element. -/
inductive Entry (α : Type*) where
  | diag (i : α)
  | re (i j : α)
  | im (i j : α)

/-- The number in the column. -/
def Entry.value {α : Type*} (ρ : α → α → ℂ) : Entry α → ℝ
  | .diag i => (ρ i i).re
  | .re i j => (ρ i j).re
  | .im i j => (ρ i j).im

/-- The text in the key. -/
def Entry.label {α : Type*} (sh : α → String) : Entry α → String
  | .diag i => "rho_" ++ sh i ++ ";" ++ sh i
  | .re i j => "real[rho_" ++ sh i ++ ";" ++ sh j ++ "]"
  | .im i j => "imag[rho_" ++ sh i ++ ";" ++ sh j ++ "]"

/-- All the columns, for the list `L` of indices. -/
def rdoEntries {α : Type*} (L : List α) (offDiagonals : Bool) : List (Entry α) :=
  L.map .diag ++ if offDiagonals then (upperPairs L).flatMap (fun p => [.re p.1 p.2, .im p.1 p.2]) else []

end CppQED.Spec
