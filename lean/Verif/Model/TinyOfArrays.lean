import Mathlib.Algebra.Ring.Defs
import Mathlib.Data.List.Basic

/-! # Vectors of arrays: `blitzplusplus::TinyOfArrays` (CPPQEDutils/BlitzTinyOfArrays.h, BlitzTinyOfArrays.tcc)

A `blitz::Array` is a reference to a block of memory; several of them can refer to the same block. The memory is the list of the blocks, an array is the number of its block. Simplified: an array is the whole block, its elements are a list whatever its rank is;
blocks are never freed, as if somebody went on referring to each. -/

namespace CppQED.TinyArrays

variable {R : Type}

/-- The memory: the blocks and their contents. -/
abbrev Memory (R : Type) := List (List R)

/-- The elements of the array. -/
def read (h : Memory R) (a : ℕ) : List R := h.getD a []

/-- The elements of the array are overwritten. -/
def write (h : Memory R) (a : ℕ) (v : List R) : Memory R := h.set a v

/-- `Array::copy()` of blitz++, called at BlitzTinyOfArrays.tcc:29, 45 and BlitzTinyOfArrays.h:92: a new block with the same elements. -/
def copy (h : Memory R) (a : ℕ) : Memory R × ℕ := (h ++ [read h a], h.length)

/-- `TinyOfArrays(DeepCopy, const TinyOfArrays& x)` (BlitzTinyOfArrays.tcc:41-46), and the constructors from several arrays (BlitzTinyOfArrays.h:92, 100-103): `(*this)(i).reference(x(i).copy())` for each `i`. -/
def deepCopy (h : Memory R) : List ℕ → Memory R × List ℕ
  | [] => (h, [])
  | x :: xs =>
    let c := copy h x
    let d := deepCopy c.1 xs
    (d.1, c.2 :: d.2)

/-- `TinyOfArrays(DeepCopy, const T_numtype& initValue)` (BlitzTinyOfArrays.tcc:25-30): `(*this)(i).reference(initValue.copy())` for each of the `n` components. -/
def deepFill (h : Memory R) (n : ℕ) (x : ℕ) : Memory R × List ℕ := deepCopy h (List.replicate n x)

/-- `TinyOfArrays(ShallowCopy, const T_numtype& initValue)` (BlitzTinyOfArrays.tcc:17-22): `(*this)(i).reference(initValue)`. -/
def shallowFill (n : ℕ) (x : ℕ) : List ℕ := List.replicate n x

/-- `boost::for_each(res,boost::lambda::_1*=-1)` (BlitzTinyOfArrays.tcc:55). -/
def timesMinusOne [Ring R] (h : Memory R) : List ℕ → Memory R
  | [] => h
  | x :: xs => timesMinusOne (write h x ((read h x).map (· * -1))) xs

/-- `negate` (BlitzTinyOfArrays.tcc:50-57). -/
def negate [Ring R] (h : Memory R) (xs : List ℕ) : Memory R × List ℕ :=
  let res := deepCopy h xs
  (timesMinusOne res.1 res.2, res.2)

end CppQED.TinyArrays
