import Mathlib.Analysis.SpecialFunctions.Complex.Circle
import Mathlib.Data.Complex.BigOperators

/-!
# Model of `quantumoperator::Tridiagonal`

Sources: `/repo/CPPQEDcore/quantumoperator/Tridiagonal.h`, `Tridiagonal.tcc`, `Tridiagonal.cc`.
`dcomp` is idealised as `ℂ`, `double` as `ℝ`. A blitz array is its shape and its content as a function of the multi-index (its element
order in memory plays no role here, cf. C07 for `doDirect`). Deep/shallow copies are not distinguished: the model is pure.
-/

namespace CppQED.Tridiag
open ComplexConjugate

/-- Multi-index of a state vector array. -/
abbrev NIdx := List ℕ

/-- `Tridiagonal<RANK>::Diagonal`: a complex blitz array; `size()==0` means "not present". -/
structure Diag where
  shape : List ℕ
  val : NIdx → ℂ

/-- `Diagonal::size()`. -/
def Diag.size (d : Diag) : ℕ := d.shape.prod

/-- A default-constructed array of rank `r`. -/
def Diag.empty (r : ℕ) : Diag := ⟨List.replicate r 0, fun _ => 0⟩

/-- The data of `Tridiagonal<RANK>` (Tridiagonal.h:309-316) with its base `DimensionsBookkeeper`. -/
structure Tri where
  rank : ℕ
  dims : List ℕ
  diffs : List ℕ
  time : ℝ
  diagonals : ℕ → Diag
  freqs : ℕ → Diag

/-- The outcome of an operation: a value, an exception, or undefined behaviour (a blitz shape mismatch, which is an assertion in debug mode
and undefined otherwise). -/
inductive Outcome (α : Type*) | ok (a : α) | throw | undef

/-! ## Unary constructor -/

/-- `Compatible` (Tridiagonal.cc:15-19). The subtractions are those of `size_t`, with wrap-around. -/
def compatible (a : ℕ) (diffA : ℕ) (b : ℕ) (diffB : ℕ) : Bool :=
  a == 0 || b == 0 || (BitVec.ofNat 64 a - BitVec.ofNat 64 diffA == BitVec.ofNat 64 b - BitVec.ofNat 64 diffB)

/-- `Tridiagonal<1>::furnishWithFreqs` (Tridiagonal.cc:26-36); `dims` has the single element `getTotalDimension()`. The `size_t` subtraction
`getTotalDimension()-k` is that of natural numbers: `k ≤ getTotalDimension()` always holds by construction (40-41). -/
def furnishWithFreqs (T : Tri) (mainDiagonal : ℕ → ℂ) : Tri :=
  let k := T.diffs.getD 0 0
  let diagonalSize := T.dims.getD 0 0 - k
  if 0 < diagonalSize then
    { T with freqs := fun i =>
        if i = 1 then ⟨[diagonalSize], fun n => mainDiagonal (n.getD 0 0 + k) - mainDiagonal (n.getD 0 0)⟩
        else if i = 2 then ⟨[diagonalSize], fun n => -(mainDiagonal (n.getD 0 0 + k) - mainDiagonal (n.getD 0 0))⟩
        else T.freqs i }
  else T

/-- The unary constructor (Tridiagonal.cc:39-60). The arguments are one-dimensional arrays. -/
def unary (zero : Diag) (k : ℕ) (minus plus : Diag) (toFreqs : Bool) : Outcome Tri :=
  let base : Tri :=
    { rank := 1, dims := [max (max zero.size (minus.size + k)) (plus.size + k)], diffs := [k], time := 0,
      diagonals := fun i => if i = 0 then (if toFreqs then Diag.empty 1 else zero) else if i = 1 then minus else plus,
      freqs := fun _ => Diag.empty 1 }
  let T := if toFreqs then furnishWithFreqs base (fun n => - zero.val [n]) else base
  if !compatible zero.size k minus.size 0 || !compatible zero.size k plus.size 0 || !compatible minus.size 0 plus.size 0 ||
      ((minus.size != 0 || plus.size != 0) && k == 0)
  then .throw else .ok T

/-- `quantumoperator::identity` (Tridiagonal.cc:63-68). -/
def identity (dim : ℕ) : Outcome Tri := unary ⟨[dim], fun _ => 1⟩ 0 (Diag.empty 1) (Diag.empty 1) false

/-! ## Application -/

/-- The three ranges of an axis of extent `N` (Tridiagonal.tcc:193-205), as (start, number of elements): `Range(0,ubound)`,
`Range(0,ubound-k)` and the latter shifted by `k`. -/
def range3 (N k : ℕ) : ℕ → ℕ × ℕ
  | 0 => (0, N)
  | 1 => (0, N - k)
  | _ => (k, N - k)

/-- The ranges selected by a compile-time vector `V` (`AT_helper`, Tridiagonal.tcc:318). -/
def rangesAt (dims diffs : List ℕ) (V : List ℕ) : List (ℕ × ℕ) :=
  List.zipWith (fun (p : ℕ × ℕ) v => range3 p.1 p.2 v) (dims.zip diffs) V

/-- Is the index inside the product of ranges? -/
def inRanges : List (ℕ × ℕ) → NIdx → Bool
  | [], [] => true
  | (s, n) :: rs, i :: is => decide (s ≤ i ∧ i < s + n) && inRanges rs is
  | _, _ => false

/-- The index in a range product `B` corresponding to the index `i` of the range product `A`: same offset. -/
def shift : List (ℕ × ℕ) → List (ℕ × ℕ) → NIdx → NIdx
  | (sa, _) :: ra, (sb, _) :: rb, i :: is => (i - sa + sb) :: shift ra rb is
  | _, _, _ => []

/-- `doApply` for `REMAINING=0` (Tridiagonal.tcc:325-337): the blitz expression
`dpsidt(ranges_D) += diagonal(ranges_A) * psi(ranges_PSI)`, elementwise. -/
def addBlock (T : Tri) (start : ℕ) (vD vA vP : List ℕ) (psi dpsidt : NIdx → ℂ) : NIdx → ℂ :=
  if (T.diagonals start).size ≠ 0 then
    let rD := rangesAt T.dims T.diffs vD
    let rA := rangesAt T.dims T.diffs vA
    let rP := rangesAt T.dims T.diffs vP
    fun i => if inRanges rD i then dpsidt i + (T.diagonals start).val (shift rD rA i) * psi (shift rD rP i) else dpsidt i
  else dpsidt

/-- `doApply` (Tridiagonal.tcc:238-262); `apply` (220-232) is the same pattern with `REMAINING=RANK`, `START=0` and empty vectors. -/
def doApply (T : Tri) : (remaining start : ℕ) → (vD vA vP : List ℕ) → (psi dpsidt : NIdx → ℂ) → (NIdx → ℂ)
  | 0, start, vD, vA, vP, psi, dpsidt => addBlock T start vD vA vP psi dpsidt
  | rem + 1, start, vD, vA, vP, psi, dpsidt =>
    let step := 3 ^ rem
    let d0 := doApply T rem (start + 0 * step) (vD ++ [0]) (vA ++ [0]) (vP ++ [0]) psi dpsidt
    let d1 := doApply T rem (start + 1 * step) (vD ++ [2]) (vA ++ [1]) (vP ++ [1]) psi d0
    doApply T rem (start + 2 * step) (vD ++ [1]) (vA ++ [1]) (vP ++ [2]) psi d1

/-- `Tridiagonal::apply(psi,dpsidt)` (Tridiagonal.tcc:220-234): the new content of `dpsidt`. -/
def apply (T : Tri) (psi dpsidt : NIdx → ℂ) : NIdx → ℂ := doApply T T.rank 0 [] [] [] psi dpsidt

/-! ## Algebra -/

/-- `doDirect<IS_MULTIPLICATION>` on two arrays of ranks `r₁` and whatever (cf. `Verif.Model.CMatrix`, C07). -/
def direct (mult : Bool) (r₁ : ℕ) (d₁ d₂ : Diag) : Diag :=
  ⟨d₁.shape ++ d₂.shape, fun i => if mult then d₁.val (i.take r₁) * d₂.val (i.drop r₁) else d₁.val (i.take r₁) + d₂.val (i.drop r₁)⟩

/-- `directDiagonals` (Tridiagonal.tcc:28-55): `res(i*length+j)` from `ds1(i)` and `ds2(j)`, `length` being the number of elements of `ds2`. -/
def directDiagonals (mult : Bool) (r₁ length : ℕ) (ds₁ ds₂ : ℕ → Diag) : ℕ → Diag :=
  fun m => direct mult r₁ (ds₁ (m / length)) (ds₂ (m % length))

/-- The direct-product constructor (Tridiagonal.tcc:61-70). -/
noncomputable def product (t₁ t₂ : Tri) : Outcome Tri :=
  open Classical in
  if t₁.time ≠ t₂.time then .throw
  else .ok
    { rank := t₁.rank + t₂.rank, dims := t₁.dims ++ t₂.dims, diffs := t₁.diffs ++ t₂.diffs, time := t₁.time,
      diagonals := directDiagonals true t₁.rank (3 ^ t₂.rank) t₁.diagonals t₂.diagonals,
      freqs := directDiagonals false t₁.rank (3 ^ t₂.rank) t₁.freqs t₂.freqs }

/-- `operator*=(dcomp)` (Tridiagonal.tcc:73-79). -/
def scale (c : ℂ) (T : Tri) : Tri := { T with diagonals := fun i => ⟨(T.diagonals i).shape, fun n => (T.diagonals i).val n * c⟩ }

/-- unary minus (Tridiagonal.h:269). -/
def neg (T : Tri) : Tri := { T with diagonals := fun i => ⟨(T.diagonals i).shape, fun n => - (T.diagonals i).val n⟩ }

/-- The loop of `transposeIndex` (Tridiagonal.tcc:92-98), `k` running from `RANK-1` down to 0; the floating-point `floor(pow(3.,k))` and
`floor(ind/double(threeToK))` are the integer power and division. -/
def transposeLoop : (k : ℕ) → (ind res : ℕ) → ℕ
  | 0, _, res => res
  | k + 1, ind, res =>
    let threeToK := 3 ^ k
    let ik := ind / threeToK
    transposeLoop k (ind - ik * threeToK) (res + ((3 - ik) % 3) * threeToK)

/-- `helper::transposeIndex` (Tridiagonal.tcc:88-101). -/
def transposeIndex (rank ind : ℕ) : ℕ := transposeLoop rank ind 0

/-- `hermitianConjugate` (Tridiagonal.tcc:84-115): the loop over the diagonals, starting from default-constructed ones. -/
noncomputable def hermitianConjugate (T : Tri) : Tri :=
  { T with diagonals := (List.range (3 ^ T.rank)).foldl (fun ds ind =>
      Function.update ds (transposeIndex T.rank ind) ⟨(T.diagonals ind).shape, fun n => conj ((T.diagonals ind).val n)⟩) (fun _ => Diag.empty T.rank) }

/-- The merging of `differences_` in `operator+=` (Tridiagonal.tcc:122-125), element by element; `none`: exception. -/
def mergeDiff (other this : ℕ) : Option ℕ :=
  if this = 0 then some other else if other ≠ 0 ∧ this ≠ other then none else some this

/-- The loop over the differences. -/
def mergeDiffs : List ℕ → List ℕ → Option (List ℕ)
  | o :: os, d :: ds => (mergeDiff o d).bind fun x => (mergeDiffs os ds).map (x :: ·)
  | _, ds => some ds

/-- The merging of one diagonal in `operator+=` (Tridiagonal.tcc:127-135). `undef` is the shape mismatch in `to+=from`. -/
def mergeDiag (src dst : Diag) : Outcome Diag :=
  if src.size ≠ 0 then
    if dst.size = 0 then .ok src
    else if dst.shape = src.shape then .ok ⟨dst.shape, fun n => dst.val n + src.val n⟩ else .undef
  else .ok dst

open Classical in
/-- The merging of one array of frequencies (Tridiagonal.tcc:137-145): throws only if *all* the elements differ. `undef` is a comparison of
arrays of different shapes. -/
noncomputable def mergeFreq (src dst : Diag) : Outcome Diag :=
  if src.size ≠ 0 then
    if dst.size ≠ 0 then
      if dst.shape ≠ src.shape then .undef
      else if ∀ n : NIdx, List.Forall₂ (· < ·) n dst.shape → dst.val n ≠ src.val n then .throw else .ok src
    else .ok src
  else .ok dst

/-- Sequencing of outcomes. -/
def Outcome.bind {α β : Type*} : Outcome α → (α → Outcome β) → Outcome β
  | .ok a, f => f a
  | .throw, _ => .throw
  | .undef, _ => .undef

/-- `boost::for_each` over the first `n` arrays of two `TinyOfArrays`, in order. -/
def mergeAll (f : Diag → Diag → Outcome Diag) (src dst : ℕ → Diag) : ℕ → Outcome (ℕ → Diag)
  | 0 => .ok dst
  | n + 1 => (mergeAll f src dst n).bind fun ds => (f (src n) (dst n)).bind fun d => .ok (Function.update ds n d)

/-- `operator+=` (Tridiagonal.tcc:118-149). Neither the dimensions nor the times are compared. -/
noncomputable def add (T S : Tri) : Outcome Tri :=
  match mergeDiffs S.diffs T.diffs with
  | none => .throw
  | some diffs =>
    (mergeAll mergeDiag S.diagonals T.diagonals (3 ^ T.rank)).bind fun diagonals =>
      (mergeAll mergeFreq S.freqs T.freqs (3 ^ T.rank)).bind fun freqs =>
        .ok { T with diffs := diffs, diagonals := diagonals, freqs := freqs }

/-- `operator-=` (Tridiagonal.h:273). -/
noncomputable def sub (T S : Tri) : Outcome Tri := add T (neg S)

/-- `tridiagPlusHC` (Tridiagonal.h:338-341). -/
noncomputable def plusHC (T : Tri) : Outcome Tri := add T (hermitianConjugate T)

/-- `tridiagMinusHC` (Tridiagonal.h:331-334). -/
noncomputable def minusHC (T : Tri) : Outcome Tri := sub T (hermitianConjugate T)

/-- `propagate` (Tridiagonal.tcc:153-163). -/
noncomputable def propagate (T : Tri) (t : ℝ) : Tri :=
  open Classical in
  let dt := t - T.time
  if dt ≠ 0 then
    { T with
      diagonals := fun i =>
        if 1 ≤ i ∧ i < 3 ^ T.rank ∧ (T.diagonals i).size ≠ 0 ∧ (T.freqs i).size ≠ 0 then
          ⟨(T.diagonals i).shape, fun n => (T.diagonals i).val n * Complex.exp (dt * (T.freqs i).val n)⟩
        else T.diagonals i
      time := t }
  else { T with time := t }

end CppQED.Tridiag
