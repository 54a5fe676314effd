import Verif.Model.Deflate
import Verif.Model.Negativity
import Verif.Model.Composite

/-!
# Model of `AveragingUtils.h`

Source: `/repo/CPPQEDelements/utils/AveragingUtils.h`. As in `Model/Deflate.lean`, the dimensions of a `LazyDensityOperator` are given by the bounds `lb` (zero in the code) and `ub` (`dim-1`); a bound `fuel` of the
number of tests of loop conditions is passed, and a loop not terminated is `none`. The text `*i` of a multi-index is a parameter `sh`.
-/

namespace CppQED.AvgUtils
open CppQED.MII (Idx)
open CppQED.Slice
open CppQED.Composite (readRange writeRange concatenate)
open ComplexConjugate

/-! ## `ReducedDensityOperator` -/

/-- The label pushed for the diagonal (AveragingUtils.h:52-54). -/
def diagLabel (sh : Idx → String) (i : Idx) : String := "rho_" ++ sh i ++ ";" ++ sh i

/-- The labels pushed for a pair of indices (62-71). -/
def offLabels (sh : Idx → String) (i j : Idx) : List String :=
  ["real[" ++ "rho_" ++ sh i ++ ";" ++ sh j ++ "]", "imag[" ++ "rho_" ++ sh i ++ ";" ++ sh j ++ "]"]

/-- The double loop of the off-diagonals (60-73). -/
def offLabelLoop (lb ub : Idx) (sh : Idx → String) (jfuel : ℕ) : ℕ → Idx → List String → Option (List String)
  | 0, _, _ => none
  | fuel + 1, i, res =>
    if i ≠ MII.end lb ub then
      match MII.loop lb ub jfuel (MII.inc lb ub i) with
      | none => none
      | some js => offLabelLoop lb ub sh jfuel fuel (MII.inc lb ub i) (res ++ js.flatMap (offLabels sh i))
    else some res

/-- The labels calculated in the constructor (43-79). Without off-diagonals the function returns before inserting `subsequent`. -/
def labels (lb ub : Idx) (sh : Idx → String) (fuel : ℕ) (offDiagonals : Bool) (subsequent : List String) : Option (List String) :=
  match MII.loop lb ub fuel (MII.begin lb ub) with
  | none => none
  | some is =>
    let res := is.map (diagLabel sh)
    if !offDiagonals then some res
    else (offLabelLoop lb ub sh fuel fuel (MII.begin lb ub) res).map (· ++ subsequent)

/-- `ReducedDensityOperator::average_v` (86-89). -/
def average (lb ub : Idx) (dim fuel : ℕ) (offDiagonals : Bool) (ρ : Idx → Idx → ℂ) : Option (List ℝ) := Deflate.deflate lb ub dim fuel ρ offDiagonals

/-! ## `ReducedDensityOperatorNegativity` -/

/-- `blitz::Array::resize` of an array of rank one: an array of the same size is left as it is, otherwise new storage is taken, with the contents `mem` which the memory happens to have. (From the documentation of blitz,
which offers `resizeAndPreserve` for the contents to be kept.) -/
def blitzResize (mem : ℕ → ℝ) (n : ℕ) (xs : List ℝ) : List ℝ := if xs.length = n then xs else (List.range n).map mem

/-- `ReducedDensityOperatorNegativity::average_v` (110-115). -/
def negAverage (mem : ℕ → ℝ) (lb ub : Idx) (dim fuel : ℕ) (ρ : Idx → Idx → ℂ) : Option (List ℝ) :=
  (average lb ub dim fuel true ρ).map fun res => blitzResize mem (res.length + 1) res

/-- `matrix(i,j)=z` in the matrix view of `rho`. -/
def setM (m : ℕ → ℕ → ℂ) (i j : ℕ) (z : ℂ) : ℕ → ℕ → ℂ := fun a b => if a = i ∧ b = j then z else m a b

/-- The body of the loop of the diagonal (125). -/
noncomputable def diagBody (averages : List ℝ) (st : (ℕ → ℕ → ℂ) × ℕ) (i : ℕ) : (ℕ → ℕ → ℂ) × ℕ := (setM st.1 i i (averages.getD st.2 0 : ℂ), st.2 + 1)

/-- The body of the loop of the off-diagonals (126). -/
def offBody (averages : List ℝ) (st : (ℕ → ℕ → ℂ) × ℕ) (p : ℕ × ℕ) : (ℕ → ℕ → ℂ) × ℕ :=
  let z : ℂ := ⟨averages.getD st.2 0, averages.getD (st.2 + 1) 0⟩
  (setM (setM st.1 p.1 p.2 z) p.2 p.1 (conj z), st.2 + 2)

/-- The matrix written by `process_v` (123-127) in the freshly allocated `rho` with the contents `m0`. -/
noncomputable def negMatrix (dim : ℕ) (m0 : ℕ → ℕ → ℂ) (averages : List ℝ) : ℕ → ℕ → ℂ :=
  let st := (List.range dim).foldl (diagBody averages) (m0, 0)
  ((List.range dim).foldl (fun st i => (List.range' (i + 1) (dim - (i + 1))).foldl (fun st j => offBody averages st (i, j)) st) st).1

/-- The position of a multi-index in the storage of an array in row-major order (blitz default storage), relative to the lower bounds. -/
def address (lb ub idx : Idx) : ℕ := ((List.range lb.length).foldl (fun a k => a * (ub.getD k 0 - lb.getD k 0 + 1) + (idx.getD k 0 - lb.getD k 0)) (0 : Int)).toNat

/-- The density operator of which `matrixView` is `m` (cf. QData.matrixView): element `i ++ j`. -/
def ofMatrix (r : ℕ) (lb ub : Idx) (m : ℕ → ℕ → ℂ) : Arr ℂ := fun x => m (address lb ub (x.take r)) (address lb ub (x.drop r))

/-- `ReducedDensityOperatorNegativity::process_v` (117-131), `dim` being `getTotalDimension()`. -/
noncomputable def negProcess (V : List ℕ) (lb ub : Idx) (dim : ℕ) (m0 : ℕ → ℕ → ℂ) (averages : List ℝ) : List ℝ :=
  averages.set (averages.length - 1) (PTrace.negPT lb.length V lb ub (ofMatrix lb.length lb ub (negMatrix dim m0 averages)))

/-! ## `Collecting` -/

/-- A `ClonableElementAveraged` (ElementAveraged.h:32-77) over lazy density operators `M`. -/
structure Element (M : Type) where
  title : String
  labels : List String
  averageV : ℝ → M → Option (List ℝ)
  processV : List ℝ → List ℝ

variable {M : Type}

/-- `nAvr_v` (ElementLiouvilleanAveragedCommon.h:38). -/
def Element.nAvr (e : Element M) : ℕ := e.labels.length

/-- `LiouvilleanAveragedCommonRanked::average` (LiouvilleanAveragedCommon.h:80-92): `none` is the exception if the number of averages is not `nAvr`. The other exception, of infinite averages, does not occur in the model. -/
def Element.average (e : Element M) (t : ℝ) (m : M) : Option (List ℝ) := (e.averageV t m).bind fun a => if a.length ≠ e.nAvr then none else some a

/-- `Collecting::process_v`'s `Helper::doIt` (178-186): the state consists of the averages (which the bound copy of the array shares) and of the bound variables `l`, `u`. -/
def doIt (st : List ℝ × Int × Int) (eav : Element M) : List ℝ × Int × Int :=
  let l := st.2.1
  let u := l + eav.nAvr
  let avr := if u > l then writeRange st.1 (l + 1) u (eav.processV (readRange st.1 (l + 1) u)) else st.1
  (avr, u, l)

/-- `Collecting` (143-195). The constructor needs `collection.front()`: without members the behaviour is undefined (`none`). -/
def collecting : List (Element M) → Option (Element M)
  | [] => none
  | e :: es => some
    { title := e.title
      labels := ((e :: es).map Element.labels).flatten
      averageV := fun t m =>
        let res := List.replicate (((e :: es).map Element.labels).flatten).length 0
        (((e :: es).mapM fun (e : Element M) => e.average t m).map fun sOs => concatenate sOs res)
      processV := fun avr => ((e :: es).foldl doIt (avr, -1, 0)).1 }

end CppQED.AvgUtils
