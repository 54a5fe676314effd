/-! Specification vocabulary for multi-index iteration, independent of the iterator. -/

namespace CppQED.Spec

/-- `idx` lies in the (inclusive) box `[lb, ub]`: same number of components, and componentwise `lb ≤ idx ≤ ub`. -/
def InBox (lb ub idx : List Int) : Prop :=
  idx.length = lb.length ∧ ∀ j, j < lb.length →
    lb.getD j 0 ≤ idx.getD j 0 ∧ idx.getD j 0 ≤ ub.getD j 0

instance (lb ub idx : List Int) : Decidable (InBox lb ub idx) := by unfold InBox; infer_instance

/-- A valid pair of bounds: at least one axis, same number of axes, every axis nonempty. -/
def ValidBounds (lb ub : List Int) : Prop :=
  0 < lb.length ∧ ub.length = lb.length ∧ ∀ j, j < lb.length → lb.getD j 0 ≤ ub.getD j 0

/-- Number of points of the box: product of the extents of the axes. -/
def boxSize : List Int → List Int → Int
  | l :: lb, u :: ub => (u - l + 1) * boxSize lb ub
  | _, _ => 1

end CppQED.Spec
