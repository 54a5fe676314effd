import Mathlib.Data.Nat.Choose.Basic

/-!
# Model of `cppqedutils::CWR_Dir`

Source: `/repo/CPPQEDutils/Combinatorics.h`. The table `impl_` (a `std::vector` of `std::array`s, value-initialised) is a function
`row → site → occupation`; `long double` binomials and their conversion to integers are exact natural numbers.
-/

namespace CppQED.CWR

/-- `mathutils::multiChoose` (MathExtensions.h:33): `binomial_coefficient(n+k-1,k)`. -/
def multiChoose (n k : ℕ) : ℕ := (n + k - 1).choose k

/-- The table `res` being filled: `res[row][site]`. -/
abbrev Table := ℕ → ℕ → ℕ

/-- `(*i)[site]=v` (Combinatorics.h:31,36). -/
def setCell (t : Table) (row site v : ℕ) : Table := fun r s => if r = row ∧ s = site then v else t r s

/-- `for (auto j=i; j<i+offset; ++j) (*j)[actualSite]=putHere;` (Combinatorics.h:36). -/
def fillCol (t : Table) (i offset site v : ℕ) : Table :=
  (List.range offset).foldl (fun t j => setCell t (i + j) site v) t

/-- The recursive lambda `recurse(i, actualSite, remainingParticles)` (Combinatorics.h:29-41), for `n = NoOfSites` and
`actualSite = n - 1 - k`; recursion on the number `k` of the sites that follow. -/
def recurse (n : ℕ) : ℕ → Table → ℕ → ℕ → Table
  | 0, t, i, remaining => setCell t i (n - 1) remaining
  | k + 1, t, i, remaining =>
    ((List.range (remaining + 1)).foldl (fun (st : Table × ℕ) putHere =>
      let t := recurse n k st.1 st.2 (remaining - putHere)
      let offset := multiChoose (n - (n - 1 - (k + 1)) - 1) (remaining - putHere)
      (fillCol t st.2 offset (n - 1 - (k + 1)) putHere, st.2 + offset)) (t, i)).1

/-- The constructor (Combinatorics.h:26-50): the rows `impl_[0], impl_[1], …`. -/
def impl (n k : ℕ) : List (List ℕ) :=
  let t := recurse n (n - 1) (fun _ _ => 0) 0 k
  (List.range (multiChoose n k)).map (fun row => (List.range n).map (t row))

/-- `operator[](size_t i)` (Combinatorics.h:54); `none` models the out-of-range access. -/
def row (n k i : ℕ) : Option (List ℕ) := (impl n k)[i]?

/-- `operator[](const Configuration&)` (Combinatorics.h:63-67): `std::find`; `none` models `SubscriptingException`. -/
def find (n k : ℕ) (c : List ℕ) : Option ℕ :=
  let i := (impl n k).findIdx (· == c)
  if i = (impl n k).length then none else some i

end CppQED.CWR
