import Verif.Model.MCWFComposite
import Verif.Props.UnravelElements
import Verif.Props.CompositeTrace

/-! # Lemmas on composite systems in Monte Carlo trajectories -/

namespace CppQED.Unravel
open CppQED.Composite CppQED.Spec CppQED.PTrace CppQED.Slice CppQED.Interactions CppQED.Elem
open CppQED.MII (Idx)
open Matrix
open scoped ComplexConjugate

variable {n : ℕ}

/-- `⟨ψ|J†J|ψ⟩` is the square of the norm of `Jψ`. -/
theorem expect_norm {lb ub : Idx} (e : Enum lb ub n) (A : Idx → Idx → ℂ) (B : Matrix (Fin n) (Fin n) ℂ) (h : boxMat e A = Bᴴ * B) (psi : Fin n → ℂ) :
    (expect lb ub A (Ldo.sv (unflatten e psi)).mat).re = MCWF.norm (B *ᵥ psi) ^ 2 := by
  have h1 : expect lb ub A (Ldo.sv (unflatten e psi)).mat = star psi ⬝ᵥ (boxMat e A *ᵥ psi) := by
    unfold expect
    rw [sum_enum e fun i => ∑ j ∈ boxFinset lb ub, A j i * (Ldo.sv (unflatten e psi)).mat i j]
    simp only [dotProduct, Matrix.mulVec, Finset.mul_sum]
    conv_rhs => rw [Finset.sum_comm]
    refine Finset.sum_congr rfl fun k _ => ?_
    rw [sum_enum e fun j => A j (e k) * (Ldo.sv (unflatten e psi)).mat (e k) j]
    refine Finset.sum_congr rfl fun l _ => ?_
    simp only [Ldo.mat, unflatten_enum, boxMat, Matrix.of_apply, Pi.star_apply, Complex.star_def]
    ring
  rw [h1, h, ← Matrix.mulVec_mulVec, Matrix.dotProduct_mulVec, ← Matrix.star_mulVec, MCWF.norm_sq]
  simp only [dotProduct, Pi.star_apply, Complex.star_def, Complex.re_sum]
  refine Finset.sum_congr rfl fun k _ => ?_
  rw [mul_comm, Complex.mul_conj, Complex.ofReal_re]

/-- The rates of a composite are those belonging to its jumps, if those of the components are such in the slices of the state. -/
theorem comp_rates (c : Comp) (hc : c.Ok) (J : ℕ → ℕ → Idx → Idx → ℂ) (hlen : ∀ p ∈ c.parts, LengthOK .li p)
    (hrate : ∀ k p li, c.parts[k]? = some p → p.li = some li → ∀ j < li.nAvr, (∀ t m, (average .li p t m).getD j 0 < 0) ∨ ∀ t m, (average .li p t m).getD j 0 =
      (expect (sliceBound p.axes c.lb) (sliceBound p.axes c.ub) (fun s s' => ∑ u ∈ boxFinset (sliceBound p.axes c.lb) (sliceBound p.axes c.ub), conj (J k j u s) * J k j u s') m).re)
    (e : Enum c.lb c.ub n) : RatesOf (c.nAvrLA .li) (fun m => boxMat e ((c.jumps J).getD m 0)) (c.mcwfRates e) := by
  intro t psi
  obtain ⟨-, h2, h3⟩ := comp_average c hc .li t (.sv (unflatten e psi)) hlen
  refine ⟨h3, fun _ i r hr => ?_⟩
  unfold Comp.mcwfRates at hr
  have hi : i < (c.jumps J).length := by rw [jumps_length, ← h3]; exact (List.getElem?_eq_some_iff.1 hr).1
  obtain ⟨k, j, p, li, q1, q2, q3, q4, q5⟩ := jumps_spec c J i _ (List.getElem?_eq_getElem hi)
  have q5' : (c.jumps J).getD i 0 = extend c.r p.axes (J k j) := by rw [List.getD_eq_getElem?_getD, List.getElem?_eq_getElem hi]; exact q5
  have hp := List.mem_of_getElem? q1
  have g := hc.geo hp
  have hn : j < nAvr .li p := by simpa [nAvr, getLA, q2] using q3
  rw [q4] at hr
  rcases hrate k p li q1 q2 j q3 with hneg | hpos
  · left
    have hl := partAverage_length .li c.r c.lb c.ub t (.sv (unflatten e psi)) p g (hlen p hp)
    have hr' := hr
    rw [h2 k p j q1 hn] at hr'
    have hv := partAverage_getD .li c.r c.lb c.ub t (.sv (unflatten e psi)) p g (hlen p hp) j hn
    rw [List.getD_eq_getElem?_getD, hr', Option.getD_some] at hv
    rw [hv]
    refine Finset.sum_neg (fun d _ => hneg t _) ?_
    obtain ⟨-, s2, s3⟩ := slices_spec g
    rw [← s3]
    exact List.toFinset_nonempty_iff _ |>.2 s2
  · right
    have hv := comp_average_expectation c hc .li t (.sv (unflatten e psi)) hlen k p j q1 hn _ (hpos t)
    rw [hr, Option.some.injEq] at hv
    rw [hv]
    refine expect_norm e _ _ ?_ psi
    beta_reduce
    rw [q5', boxMat_extend_conj, boxMat_extend_mul g]

/-- What the composite needs to know of the rates of an element, in an arbitrary slice of the state: each of them is the trace of `JρJ†`, or is always negative. -/
def SliceRates (e : Element) (J : List Dens) : Prop :=
  ∀ L, e.li = some L → (∀ m, (L.rates (LDO.ofDM e.dim m)).length = J.length) ∧ ∀ j < J.length, (∀ m, (L.rates (LDO.ofDM e.dim m)).getD j 0 < 0) ∨
    ∀ m, (L.rates (LDO.ofDM e.dim m)).getD j 0 = (mat e.dim (J.getD j 0) * mat e.dim m * (mat e.dim (J.getD j 0))ᴴ).trace.re

theorem trace_expect (d : ℕ) (A : Dens) (m : Idx → Idx → ℂ) : (mat d A * mat d (fun a b => m [(a : ℤ)] [(b : ℤ)]) * (mat d A)ᴴ).trace =
    expect (lower [d]) (upper [d]) (fun s s' => ∑ u ∈ boxFinset (lower [d]) (upper [d]), conj (single A u s) * single A u s') m := by
  have hsum : ∀ f : Idx → ℂ, ∑ u ∈ boxFinset (lower [d]) (upper [d]), f u = ∑ k : Fin d, f [((k : ℕ) : ℤ)] := by
    intro f
    rw [sum_box, ModeEl.sum_natBox_one, Finset.sum_range]
    rfl
  unfold expect
  simp only [hsum]
  rw [Matrix.trace_mul_cycle]
  simp only [Matrix.trace, Matrix.diag, Matrix.mul_apply, Matrix.conjTranspose_apply, mat_apply, Complex.star_def]
  rw [Finset.sum_comm]
  refine Finset.sum_congr rfl fun a _ => Finset.sum_congr rfl fun b _ => ?_
  simp [Spec.single, q]

theorem freePart_rates {e : Element} {J : List Dens} (hL : LiIs e J) (h : SliceRates e J) (k : ℕ) :
    LengthOK .li { freePart e with axes := [k] } ∧ ∀ j < J.length, (∀ t m, (average .li { freePart e with axes := [k] } t m).getD j 0 < 0) ∨ ∀ t m, (average .li { freePart e with axes := [k] } t m).getD j 0 =
      (expect (lower [e.dim]) (upper [e.dim]) (fun s s' => ∑ u ∈ boxFinset (lower [e.dim]) (upper [e.dim]), conj (single (J.getD j 0) u s) * single (J.getD j 0) u s') m).re := by
  cases hl : e.li with
  | none =>
    have hJ : J = [] := by unfold LiIs at hL; rw [hl] at hL; exact hL
    refine ⟨fun t m => ?_, fun j hj => by simp [hJ] at hj⟩
    simp [average, nAvr, getLA, freePart, hl]
  | some L =>
    obtain ⟨h1, h2⟩ := h L hl
    have hav : ∀ t m, average .li { freePart e with axes := [k] } t m = L.rates (LDO.ofDM e.dim fun a b => m [(a : ℤ)] [(b : ℤ)]) := by
      intro t m
      simp [average, getLA, freePart, hl]
    refine ⟨fun t m => ?_, fun j hj => ?_⟩
    · rw [hav, freePart_nAvr hL k, h1]
    · rcases h2 j hj with h | h
      · left; intro t m; rw [hav]; exact h _
      · right; intro t m; rw [hav, h, trace_expect]

end CppQED.Unravel
