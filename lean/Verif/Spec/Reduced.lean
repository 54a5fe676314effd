import Verif.Model.CompositeMaster
import Verif.Spec.PartialTrace
import Verif.Model.Interactions

/-! # The state of a part of the system -/

namespace CppQED.Spec
open CppQED.Composite

/-- The density operator of the subsystems `V` of a composite system with the density operator `ρ` (stored in the order `e`): the partial trace over all the other subsystems, as a matrix (stored in the order `e'`). -/
noncomputable def reduced {lb ub lb' ub' : List ℤ} {n n' : ℕ} (V : List ℕ) (e : Enum lb ub n) (e' : Enum lb' ub' n') (ρ : Matrix (Fin n) (Fin n) ℂ) : Matrix (Fin n') (Fin n') ℂ :=
  Matrix.of fun k l => ptrace V lb ub (fun i j => unflatten2 e ρ (i ++ j)) (e' k) (e' l)

/-- An interaction of subsystems of the group `V`, which are numbered within the group, in the numbering of the whole system. -/
def renumbered (V : List ℕ) (ia : Part) : Part := { ia with axes := ia.axes.map fun a => V.getD a 0 }

/-- The group `V` of the elements `es` of a composite is made up of the elements `es'` with the interactions `acts'` (numbered within the group), and it is not coupled to the rest: the interactions between an element of
the group and another one out of it have no Hamiltonian (as `structure::Interaction` alone). -/
structure Separate (V : List ℕ) (es : List Elem.Element) (acts : List Part) (es' : List Elem.Element) (acts' : List Part) : Prop where
  axes : ValidAxes es.length V
  elements : V.map (fun k => es[k]?) = es'.map some
  range : ∀ ia ∈ acts', ∀ a ∈ ia.axes, a < V.length
  inside : acts.filter (fun ia => ia.axes.all (V.contains ·)) = acts'.map (renumbered V)
  outside : ∀ ia ∈ acts, (∀ a ∈ ia.axes, a ∈ V) ∨ (∀ a ∈ ia.axes, a ∉ V) ∨ ia.ha = none

end CppQED.Spec
