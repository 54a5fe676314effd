import Verif.Model.Mode
import Verif.Model.PartialTrace

/-!
# Model of the averages of two-mode and qbit-mode interactions

Sources: `/repo/CPPQEDelements/interactions/ModeCorrelations.cc`, `QbitModeCorrelations.cc`; `AveragedMonitorCutoff` of `/repo/CPPQEDelements/frees/Mode_.h`, `Mode.tcc`.
The indices are of type `ℕ`, overflow of `int` products under square roots (for dimensions over 46340) is not modelled.
-/

namespace CppQED.Corr
open CppQED.Elem CppQED.ModeEl

/-- `quantumdata::LazyDensityOperator<2>`: dimensions, and `matrix(n,m)(n',m')`. -/
structure LDO2 where
  dim0 : ℕ
  dim1 : ℕ
  index : ℕ → ℕ → ℕ → ℕ → ℂ

/-- The slices for the first subsystem (LazyDensityOperatorSliceIterator; cf. `Model/PartialTrace.lean` for the slicing). The trace of a slice is not used by the averages. -/
def LDO2.slice0 (m : LDO2) (k : ℕ) : LDO := ⟨m.dim0, fun i j => m.index i k j k, 0⟩

/-- The slices for the second subsystem. -/
def LDO2.slice1 (m : LDO2) (k : ℕ) : LDO := ⟨m.dim1, fun i j => m.index k i k j, 0⟩

/-- `ModeCorrelations::average_v` (ModeCorrelations.cc:32-65). -/
noncomputable def average (m : LDO2) : Averages :=
  let a0 := (PTrace.partialTrace (List.range m.dim1) fun k => (averageQ (m.slice0 k) : ℕ → ℝ)).getD 0
  let a1 := (PTrace.partialTrace (List.range m.dim0) fun k => (averageQ (m.slice1 k) : ℕ → ℝ)).getD 0
  let averages : Averages := fun i => if i < 7 then a0 i else if i < 14 then a1 (i - 7) else 0
  (List.range m.dim0).foldl (fun averages (n : ℕ) => (List.range' 1 (m.dim1 - 1)).foldl (fun (averages : Averages) (k : ℕ) =>
    let averages := if n < m.dim0 - 1 then
        let temp := Real.sqrt ((k * (n + 1) : ℕ) : ℝ) * m.index n k (n + 1) (k - 1)
        (averages.add 14 temp.re).add 15 temp.im
      else averages
    if 0 < n then
      let temp := Real.sqrt ((k * n : ℕ) : ℝ) * m.index n k (n - 1) (k - 1)
      (averages.add 16 temp.re).add 17 temp.im
    else averages) averages) averages

/-- `ModeCorrelations::process_v` (ModeCorrelations.cc:68-97). -/
noncomputable def process (a : Averages) : Averages :=
  let r0 := processQ a
  let a : Averages := fun i => if i < 7 then r0 i else a i
  let r1 := processQ fun i => a (7 + i)
  let a : Averages := fun i => if 7 ≤ i ∧ i < 14 then r1 (i - 7) else a i
  let xAvr := Real.sqrt 2 * a 2
  let yAvr := Real.sqrt 2 * a 3
  let qAvr := Real.sqrt 2 * a 9
  let pAvr := Real.sqrt 2 * a 10
  let xq := a 14 + a 16 - xAvr * qAvr
  let xp := a 15 + a 17 - xAvr * pAvr
  let yq := -a 15 + a 17 - yAvr * qAvr
  let yp := a 14 - a 16 - yAvr * pAvr
  (((a.set 14 xq).set 15 xp).set 16 yq).set 17 yp

/-- `QbitModeCorrelations::average_v` (QbitModeCorrelations.cc:13-37). -/
noncomputable def averageQbitMode (m : LDO2) : Averages :=
  let a : Averages := fun _ => 0
  let a := (List.range (m.dim1 - 1)).foldl (fun (a : Averages) (n : ℕ) =>
    let temp := Real.sqrt ((n + 1 : ℕ) : ℝ) * m.index 1 n 0 (n + 1)
    (a.add 0 temp.re).add 1 temp.im) a
  let a := (List.range (m.dim1 - 1)).foldl (fun (a : Averages) (n : ℕ) =>
    let temp := Real.sqrt ((n + 1 : ℕ) : ℝ) * m.index 1 (n + 1) 0 n
    (a.add 2 temp.re).add 3 temp.im) a
  (List.range (m.dim1 - 1)).foldl (fun (a : Averages) (n : ℕ) =>
    let temp := (1 / 2 : ℝ) * Real.sqrt ((n + 1 : ℕ) : ℝ) * (m.index 1 (n + 1) 1 n - m.index 0 (n + 1) 0 n)
    (a.add 4 temp.re).add 5 temp.im) a

/-- `AveragedMonitorCutoff<Base>::process_v` (Mode.tcc:69-75). -/
noncomputable def processMonitorCutoff (base : Averages → Averages) (size : ℕ) (a : Averages) : Averages :=
  if 1 < size then
    let ranged := base a
    fun i => if i ≤ size - 2 then ranged i else a i
  else a

end CppQED.Corr
