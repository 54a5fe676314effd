/-!
# Model of `cppqedutils::MultiIndexIterator`

Source: `/repo/CPPQEDutils/MultiIndexIterator.h`.

A `IdxTiny<RANK>` (a `blitz::TinyVector<int,RANK>`) is a `List Int` of length `RANK`.
Machine `int` is modelled by `Int` (no overflow).
-/

namespace CppQED.MII

/-- A multi-index, `IdxTiny<RANK>` (MultiIndexIterator.h:31,49). -/
abbrev Idx := List Int

/-- `MultiIndexIterator::doIt<N>` (MultiIndexIterator.h:90-98).
`idx_(N)` is `idx.getD N 0`; the assignment is `List.set`. The compile-time recursion on `N` is a structural recursion. -/
def doIt (lb ub : Idx) : Nat → Idx → Idx
  | 0, idx => idx.set 0 (idx.getD 0 0 + 1)
  | N + 1, idx =>
    if idx.getD (N + 1) 0 = ub.getD (N + 1) 0 then
      doIt lb ub N (idx.set (N + 1) (lb.getD (N + 1) 0))
    else
      idx.set (N + 1) (idx.getD (N + 1) 0 + 1)

/-- `MultiIndexIterator::operator++` (MultiIndexIterator.h:71): `doIt<RANK-1>()`. -/
def inc (lb ub idx : Idx) : Idx := doIt lb ub (lb.length - 1) idx

/-- Constructor with `mii::begin` / `setToBegin` (MultiIndexIterator.h:57, 82, 85). -/
def begin (lb _ub : Idx) : Idx := lb

/-- Constructor with `mii::end` / `setToEnd` (MultiIndexIterator.h:57, 83, 86): start from the upper bound and increment. -/
def «end» (lb ub : Idx) : Idx := inc lb ub ub

/-- The canonical loop `for (i.setToBegin(); i!=i.getEnd(); ++i) body(*i)` (as used e.g. in
`/repo/CPPQEDelements/utils/AveragingUtils.h:51`), collecting the visited indices. `fuel` bounds the number of tests of the
loop condition; `none` means that the loop has not terminated within `fuel` tests. -/
def loop (lb ub : Idx) : Nat → Idx → Option (List Idx)
  | 0, _ => none
  | fuel + 1, idx =>
    if idx = «end» lb ub then some []
    else (loop lb ub fuel (inc lb ub idx)).map (idx :: ·)

end CppQED.MII
