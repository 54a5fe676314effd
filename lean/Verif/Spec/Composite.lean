import Verif.Model.Composite

/-!
# Specification vocabulary for composite systems
-/

namespace CppQED.Spec
open CppQED.Composite

/-- Every quantity numbered through a composite system (jumps, rates, columns, labels) is numbered component by component: those of component `k` start here. -/
def offset (counts : List ℕ) (k : ℕ) : ℕ := (counts.take k).sum

/-- The numbered labels of a key. -/
def entries (items : List KeyItem) : List (String × ℕ) :=
  items.filterMap fun | .title _ => none | .entry i label => some (label, i)

/-- `la` writes its `labels` numbered successively from the given number, as many as it has averages, and returns the next number. -/
def KeyOK (nAvr : ℕ) (streamKey : ℕ → List KeyItem × ℕ) (labels : List String) : Prop :=
  labels.length = nAvr ∧ ∀ i, entries (streamKey i).1 = labels.zipIdx i ∧ (streamKey i).2 = i + nAvr

/-- A part has the labels `labels`. -/
def PartKeyOK (tag : Tag) (p : Part) (labels : List String) : Prop :=
  match getLA p tag with
  | none => labels = []
  | some la => KeyOK la.nAvr la.streamKey labels

/-- What a component makes of its own block of averages. -/
def processBlock (p : Part) (block : List ℝ) : List ℝ :=
  match p.av with
  | none => block
  | some av => if av.nAvr = 0 then block else av.process block

/-- What a component writes about its own block of averages. -/
def streamBlock (p : Part) (block : List ℝ) : List String :=
  match p.av with
  | none => []
  | some av => if av.nAvr = 0 then [] else av.stream block

end CppQED.Spec
