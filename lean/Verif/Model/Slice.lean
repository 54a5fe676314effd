import Verif.Model.MultiIndex
import Verif.Spec.MultiIndex
import Mathlib.Data.List.Basic
import Mathlib.Logic.Function.Basic

/-!
# Model of `cppqedutils::sliceiterator`

Source: `/repo/CPPQEDutils/SliceIterator.h`, `/repo/CPPQEDutils/SliceIterator.tcc`, `/repo/CPPQEDutils/TMP_Tools.h`.

The compile-time vector `V` of retained axes is a `List ℕ`, `RANK` is a natural number. A blitz array of rank `r` is a function from
multi-indices (`List Int`) to values, together with its lower and upper bounds. A reference/view into an array is modelled by the map
from the indices of the view to the indices of the underlying array ("address map").
-/

namespace CppQED.Slice
open CppQED.MII (Idx)

/-- `ConsistencyChecker` for a general `V` (SliceIterator.h:54-65): size at most `RANK`, no duplicates, maximum below `RANK`.
(`mpl::max_element` of an empty vector is not dereferenceable, hence `V ≠ []`.) -/
def consistent (r : ℕ) (V : List ℕ) : Bool :=
  decide (V.length ≤ r) && decide V.Nodup && decide (V ≠ []) && V.all (· < r)

/-- `ConsistencyChecker` specialised to `mpl::range_c<int,I1,I2>` (SliceIterator.h:69-74), to which `tmptools::Range` and
`tmptools::Ordinals` are forwarded (76-79): `I1>=0 && I2<RANK`. -/
def consistentRange (r : ℕ) (i1 i2 : Int) : Bool := decide (0 ≤ i1) && decide (i2 < r)

/-- `tmptools::NegatedView<RANK,V>` (TMP_Tools.h:222-228): the ordinals `0..RANK-1` not contained by `V`, ascending. -/
def negated (r : ℕ) (V : List ℕ) : List ℕ := (List.range r).filter (fun j => !V.contains j)

/-- `filterOut<RANK,V>` (SliceIterator.h:90-104). -/
def filterOut (r : ℕ) (V : List ℕ) (idx : Idx) : Idx := (negated r V).map (fun j => idx.getD j 0)

/-- One step of the `mpl::fold` in `details::namehider::Algorithm` (SliceIterator.tcc:77-92): the state is (list built so far, iterator
into `V`, modelled as the remaining part of `V`). -/
def algorithmStep (V : List ℕ) (st : List ℕ × List ℕ) (j : ℕ) : List ℕ × List ℕ :=
  (st.1 ++ [if V.contains j then st.2.headD 0 else j],
   if V.contains j then st.2.tail else st.2)

/-- `TransposerMeta_t<RANK,V>` (SliceIterator.tcc:77-99): the arguments of the `transposeSelf` call. -/
def transposerMeta (r : ℕ) (V : List ℕ) : List ℕ := ((List.range r).foldl (algorithmStep V) ([], V)).1

/-- `blitz::Array::transposeSelf(p_0,p_1,…)` as an address map: axis `j` of the result is axis `p_j` of the original, i.e. the element
`idx` of the transposed array is the element of the original array whose coordinate on axis `p_j` is `idx_j`. -/
def untranspose (r : ℕ) (p : List ℕ) (idx : Idx) : Idx :=
  (List.range r).map (fun a => ((p.zip idx).lookup a).getD 0)

/-- One step of the `fusion::fold` in `IndexerBase::fillIdxValues` (SliceIterator.tcc:40-50), the types `Idx` being given in 29-35:
`none` stands for `blitz::Range::all()`, `some i` for the integer index `i`; the second component of the state is the iterator into
the dummy indices. -/
def fillStep (V : List ℕ) (st : List (Option Int) × Idx) (j : ℕ) : List (Option Int) × Idx :=
  if V.contains j then (st.1 ++ [none], st.2) else (st.1 ++ [some (st.2.headD 0)], st.2.tail)

/-- `IndexerBase::fillIdxValues` (SliceIterator.tcc:40-50). -/
def fillIdxValues (r : ℕ) (V : List ℕ) (dummies : Idx) : List (Option Int) :=
  ((List.range r).foldl (fillStep V) ([], dummies)).1

/-- blitz subarray `array(i0,Range::all(),…)` as an address map: the coordinates of the subarray fill the places of the
`Range::all()`s in order. (`Indexer::_`, SliceIterator.h:159-192.) -/
def subarrayAddr : List (Option Int) → Idx → Idx
  | [], _ => []
  | none :: rest, s => s.headD 0 :: subarrayAddr rest s.tail
  | some i :: rest, s => i :: subarrayAddr rest s

/-- The address, in the original array, of the element `s` of the slice belonging to the dummy indices `d`:
`Indexer<V>::_(Transposer<V>::_(array),resArray,d)(s)` (`Base::operator*` with `Base::Base`, SliceIterator.h:322-354). When
`Size_v<V>==RANK`, `BaseSpecial` (387-399) performs the transposition only, which is the `d = []` case. -/
def sliceAddr (r : ℕ) (V : List ℕ) (d s : Idx) : Idx :=
  untranspose r (transposerMeta r V) (subarrayAddr (fillIdxValues r V d) s)

/-- Bounds of a slice: those of the retained axes, in the order of `V`. (The result of `transposeSelf` + subarray in blitz.) -/
def sliceBound (V : List ℕ) (b : Idx) : Idx := V.map (fun j => b.getD j 0)

/-- The sequence of dummy indices visited by `for (auto& slice : fullRange<V>(array))`.
`Base` (SliceIterator.h:322-354): multi-index iteration between the filtered bounds; `BaseTrivial`/`BaseSpecial` (358-399), selected
when `Size_v<V>==RANK`: a single slice. -/
def fullRange (r : ℕ) (V : List ℕ) (lb ub : Idx) (fuel : ℕ) : Option (List Idx) :=
  if V.length = r then some [[]]
  else MII.loop (filterOut r V lb) (filterOut r V ub) fuel (MII.begin (filterOut r V lb) (filterOut r V ub))

/-- The contents of an array. -/
abbrev Arr (α : Type*) := Idx → α

/-- Contents of the slice `d` of an array. -/
def readSlice {α : Type*} (r : ℕ) (V : List ℕ) (d : Idx) (psi : Arr α) : Arr α := fun s => psi (sliceAddr r V d s)

open Classical in
/-- Effect on the whole array of overwriting the slice `d` (a view into it) by the contents `t`: an element is changed iff it is the
address of some element of the slice. -/
noncomputable def writeSlice {α : Type*} (r : ℕ) (V : List ℕ) (lb ub d : Idx) (t : Arr α) (psi : Arr α) : Arr α := fun i =>
  if h : ∃ s, Spec.InBox (sliceBound V lb) (sliceBound V ub) s ∧ sliceAddr r V d s = i then t h.choose else psi i

/-- `boost::for_each(fullRange<V>(psi), f)` for an `f` that acts in place on a slice, e.g. `actWithU` in BinarySystem.cc:177-184 and
Composite.tcc:156-169. `ds` is the sequence of slices. -/
noncomputable def forEachSlice {α : Type*} (r : ℕ) (V : List ℕ) (lb ub : Idx) (ds : List Idx) (f : Arr α → Arr α) (psi : Arr α) : Arr α :=
  ds.foldl (fun psi d => writeSlice r V lb ub d (f (readSlice r V d psi)) psi) psi

/-- `cppqedutils::for_each(fullRange<V>(psi), begin<V>(dpsidt), f)` for an `f(psiSlice,dpsidtSlice)` that changes the second argument
in place, as `addContribution` in BinarySystem.cc:194-207 and Composite.tcc:178-197 does (both iterators run in parallel). -/
noncomputable def forEachSlice₂ {α β : Type*} (r : ℕ) (V : List ℕ) (lb ub : Idx) (ds : List Idx) (f : Arr α → Arr β → Arr β)
    (psi : Arr α) (dpsidt : Arr β) : Arr β :=
  ds.foldl (fun dpsidt d => writeSlice r V lb ub d (f (readSlice r V d psi) (readSlice r V d dpsidt)) dpsidt) dpsidt

end CppQED.Slice
