import Verif.Model.PyState

/-!
# Model of the initial conditions and operators of the Python package

Sources: `/repo/cpypyqed/tools/initialconditions.py`, `/repo/cpypyqed/tools/operators.py`. The conventions are those of `Verif.Model.PyState`.
-/

namespace CppQED.PyTools
open CppQED.Tridiag

/-- `numpy.linspace(start,stop,N,endpoint=False)`. -/
noncomputable def linspace (start stop : ℝ) (N : ℕ) (i : ℕ) : ℝ := start + i * ((stop - start) / N)

/-- An array with one axis. -/
def vec (n : ℕ) (psi : ℕ → ℂ) : NDArray := ⟨[n], fun i => psi (i.getD 0 0)⟩

open Classical in
/-- `gaussian` (initialconditions.py:16-82). The warnings are not modelled. With zero `sigma` there are divisions by zero, with negative `sigma` the square root in `Norm` is not a number. -/
noncomputable def gaussian (x0 k0 sigma : ℝ) (fin : ℕ) (isItInK cppqed : Bool) : Outcome NDArray :=
  let N := 2 ^ fin
  let x0 := if cppqed then x0 * Real.pi else x0
  let (L, offset1, offset2) : ℝ × ℝ × ℝ := if isItInK then ((N : ℕ), k0, -x0) else (2 * Real.pi, x0, k0)
  if sigma ≤ 0 then .undef
  else
    let array : ℕ → ℝ := linspace (-L / 2) (L / 2) N
    let Norm : ℝ := Real.sqrt (L / N) / (2 * Real.pi) ^ (1 / 4 : ℝ) / Real.sqrt sigma
    let Psi : ℕ → ℂ := fun i => Norm * Complex.exp ((-(array i - offset1) ^ 2 / (4 * sigma ^ 2) : ℝ)) * Complex.exp (Complex.I * array i * offset2)
    let Psi := if !isItInK then fft N Psi else Psi
    normalize (vec N Psi)

/-- A number as passed by the user: NumPy does not convert a complex number to a real one, not even if its imaginary part is zero. -/
inductive PyNum
  | real (x : ℝ)
  | complex (z : ℂ)

/-- The recursion (initialconditions.py:121-123). -/
noncomputable def coherentRec (alpha : ℝ) : ℕ → ℝ
  | 0 => 1
  | n + 1 => coherentRec alpha n * alpha / Real.sqrt (n + 1 : ℕ)

/-- `coherent` (initialconditions.py:84-125). The array `x` is one of real numbers (120): the assignment (123) of a complex number to one of its elements is an exception, but the loop is empty if `N` is 1. If `N` is 0, the assignment (121) is out of bounds. -/
noncomputable def coherent (alpha : PyNum) (N : ℕ) : Outcome NDArray :=
  if N = 0 then .throw
  else match alpha with
    | .real alpha => .ok (vec N fun n => (Real.exp (-|alpha| ^ 2 / 2) * coherentRec alpha n : ℝ))
    | .complex alpha => if N = 1 then .ok (vec N fun _ => (Real.exp (-‖alpha‖ ^ 2 / 2) : ℝ)) else .throw

/-- The element of an array of extent `n` that the index `i` refers to: negative indices count from the end; `none` is the exception. -/
def pyIndex (n : ℕ) (i : ℤ) : Option ℕ :=
  if 0 ≤ i ∧ i < n then some i.toNat else if -(n : ℤ) ≤ i ∧ i < 0 then some (i + n).toNat else none

/-- `fock` (initialconditions.py:127-147). -/
def fock (dim : ℕ) (i : ℤ) : Outcome NDArray :=
  match pyIndex dim i with
  | none => .throw
  | some p => .ok (vec dim fun n => if n = p then 1 else 0)

/-- `momentum_eigen` (initialconditions.py:149-169). -/
def momentumEigen (k : ℤ) (fin : ℕ) : Outcome NDArray := fock (2 ^ fin) (k + (2 ^ fin / 2 : ℕ))

/-- `numpy.diag(v,k)` for a list `v` of `n-|k|` elements (`n>0`). -/
def diag (n : ℕ) (v : ℕ → ℂ) (k : ℤ) : NDArray :=
  ⟨[n, n], fun x => if (x.getD 1 0 : ℤ) = x.getD 0 0 + k then v (min (x.getD 0 0) (x.getD 1 0)) else 0⟩

/-- `create` (operators.py:14-25): the list is `[√1,…,√(dim-1)]`. The assertion fails for `dim=0`. -/
noncomputable def create (dim : ℕ) : Outcome NDArray := if dim = 0 then .throw else .ok (diag dim (fun i => Real.sqrt (i + 1 : ℕ)) (-1))

/-- `destroy` (operators.py:27-38). -/
noncomputable def destroy (dim : ℕ) : Outcome NDArray := if dim = 0 then .throw else .ok (diag dim (fun i => Real.sqrt (i + 1 : ℕ)) 1)

end CppQED.PyTools
