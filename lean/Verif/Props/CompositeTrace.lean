import Verif.Props.InteractionsMaster
import Verif.Props.BinaryComposite
import Verif.Props.Conservation
import Verif.Props.ModeTrace

/-!
# Composites of elements in the Master equation: conservation of the trace (C83), the Jaynes-Cummings system
-/

namespace CppQED.Interactions
open CppQED.Elem CppQED.ModeEl CppQED.Spec CppQED.Composite CppQED.Tridiag CppQED.PTrace CppQED.Slice
open CppQED.MII (Idx)
open ComplexConjugate Matrix

variable {n : ℕ}

/-- A system which follows a Master equation with conserved probability, conserves the trace. -/
theorem FollowsMaster.conserves {S : Master.Sys n} {H : Matrix (Fin n) (Fin n) ℂ} {J : List (Matrix (Fin n) (Fin n) ℂ)} (h : FollowsMaster S H J) (hc : Conserving H J) : ConservesTrace S := by
  intro t0 t rho hrho hder
  have h1 := h t0 t rho hrho hder
  have h2 := HasDerivAt.sum (u := Finset.univ) fun (i : Fin n) _ => h1 i i
  have h3 : ∑ i, lindblad H J (Master.exactPart S t t0 (rho t)) i i = 0 := (Master.lindblad_traceless_iff H J).2 hc _
  rw [h3] at h2
  refine h2.congr_of_eventuallyEq (Filter.Eventually.of_forall fun s => ?_)
  simp [Matrix.trace]

theorem conservingOn_single {d : ℕ} {H : Dens} {J : List Dens} (h : Conserving (mat d H) (J.map (mat d))) : ConservingOn (lower [d]) (upper [d]) (Spec.single H) (J.map Spec.single) := by
  intro s s' hs hs'
  obtain ⟨x, hx, rfl⟩ := one_box ((mem_boxFinset _ _ _ (lower_length _)).1 hs)
  obtain ⟨y, hy, rfl⟩ := one_box ((mem_boxFinset _ _ _ (lower_length _)).1 hs')
  have h1 := congrFun (congrFun h ⟨x, hx⟩) ⟨y, hy⟩
  have h2 : ∀ J : List Dens, ((J.map (mat d)).map fun j => jᴴ * j).sum ⟨x, hx⟩ ⟨y, hy⟩ = ((J.map Spec.single).map fun j => ∑ u ∈ boxFinset (lower [d]) (upper [d]), conj (j u [(x : ℤ)]) * j u [(y : ℤ)]).sum := by
    intro J
    induction J with
    | nil => simp
    | cons j J ih =>
      simp only [List.map_cons, List.sum_cons, Matrix.add_apply]
      rw [ih]
      congr 1
      rw [sum_box, sum_natBox_one, Matrix.mul_apply, Finset.sum_range]
      refine Finset.sum_congr rfl fun u _ => ?_
      simp [Spec.single, q, up, mat_apply]
  rw [Matrix.neg_apply, h2] at h1
  simp only [Matrix.add_apply, Matrix.conjTranspose_apply, mat_apply] at h1
  rw [eq_neg_iff_add_eq_zero] at h1
  simpa [Spec.single, q] using h1

theorem sum_flatMap {α M : Type*} [AddCommMonoid M] (l : List α) (f : α → List M) : (l.flatMap f).sum = (l.map fun a => (f a).sum).sum := by
  induction l with
  | nil => rfl
  | cons a l ih => simp [ih]

/-- **C83.** Composites of elements which conserve the probability and of interactions without losses conserve the probability. -/
theorem composite_conserving (es : List Element) (acts : List Part) (h0 : es ≠ []) (hd : ∀ e ∈ es, 0 < e.dim) (H : ℕ → Dens) (J : ℕ → List Dens) (V : Part → Idx → Idx → ℂ)
    (hF : ∀ k e, es[k]? = some e → Conserving (mat e.dim (H k)) ((J k).map (mat e.dim))) (hI : ∀ ia ∈ acts, ValidAxes es.length ia.axes ∧ AntiHermitian (V ia))
    (en : Enum (composite es acts).lb (composite es acts).ub n) :
    Conserving (boxMat en fun i j => ∑ k ∈ Finset.range es.length, extend es.length [k] (Spec.single (H k)) i j + (acts.map fun ia => extend es.length ia.axes (V ia) i j).sum)
      ((List.range es.length).flatMap fun k => (J k).map fun j => boxMat en (extend es.length [k] (Spec.single j))) := by
  have hb : ValidBounds (composite es acts).lb (composite es acts).ub := validBounds_of es h0 hd
  have hlen : (composite es acts).lb.length = es.length := by simp [composite]
  have hfree : ∀ k < es.length, boxMat en (extend es.length [k] (Spec.single (H k))) + (boxMat en (extend es.length [k] (Spec.single (H k))))ᴴ +
      (((J k).map fun j => boxMat en (extend es.length [k] (Spec.single j))).map fun j => jᴴ * j).sum = 0 := by
    intro k hk
    have he := List.getElem?_eq_getElem hk
    have g : Geo es.length [k] (composite es acts).lb (composite es acts).ub := ⟨⟨by simp, by simp, by simpa using hk⟩, hb, hlen⟩
    have := conserving_extend g en (Spec.single (H k)) ((J k).map Spec.single) (by
      have e1 : sliceBound [k] (composite es acts).lb = lower [es[k].dim] := by simp only [composite]; rw [sliceBound_one es k _ he]; rfl
      have e2 : sliceBound [k] (composite es acts).ub = upper [es[k].dim] := by simp only [composite]; rw [sliceBound_one es k _ he]; rfl
      rw [e1, e2]
      exact conservingOn_single (hF k _ he))
    simpa only [List.map_map, Function.comp_def] using this
  have hact : ∀ ia ∈ acts, boxMat en (extend es.length ia.axes (V ia)) + (boxMat en (extend es.length ia.axes (V ia)))ᴴ = 0 := by
    intro ia h
    have := conserving_extend (⟨(hI ia h).1, hb, hlen⟩ : Geo es.length ia.axes _ _) en (V ia) [] (by
      intro s s' _ _
      have := (hI ia h).2 s s'
      rw [this]; simp)
    simpa using this
  have hsplit : (boxMat en fun i j => ∑ k ∈ Finset.range es.length, extend es.length [k] (Spec.single (H k)) i j + (acts.map fun ia => extend es.length ia.axes (V ia) i j).sum) =
      ((List.range es.length).map fun k => boxMat en (extend es.length [k] (Spec.single (H k)))).sum + (acts.map fun ia => boxMat en (extend es.length ia.axes (V ia))).sum := by
    ext x y
    have hl : ∀ {α : Type} (l : List α) (f : α → Idx → Idx → ℂ), (l.map fun a => boxMat en (f a)).sum x y = (l.map fun a => f a (en x) (en y)).sum := by
      intro α l f
      induction l with
      | nil => simp
      | cons a l ih => simp only [List.map_cons, List.sum_cons, Matrix.add_apply, ih]; rfl
    rw [Matrix.add_apply, hl, hl]
    simp only [boxMat, Matrix.of_apply]
    rfl
  rw [hsplit]
  unfold Conserving
  rw [List.map_flatMap, sum_flatMap, Matrix.conjTranspose_add, eq_neg_iff_add_eq_zero]
  have hc : ∀ l : List (Matrix (Fin n) (Fin n) ℂ), l.sumᴴ = (l.map fun m => mᴴ).sum := by
    intro l
    induction l with
    | nil => simp
    | cons a l ih => simp [ih]
  rw [hc, hc]
  have s1 : ∀ l : List ℕ, (∀ k ∈ l, k < es.length) → (l.map fun k => boxMat en (extend es.length [k] (Spec.single (H k)))).sum +
      ((l.map fun k => boxMat en (extend es.length [k] (Spec.single (H k)))).map fun m => mᴴ).sum +
      (l.map fun k => (((J k).map fun j => boxMat en (extend es.length [k] (Spec.single j))).map fun j => jᴴ * j).sum).sum = 0 := by
    intro l hl
    induction l with
    | nil => simp
    | cons a l ih =>
      have h1 := hfree a (hl a (by simp))
      have h2 := ih fun k hk => hl k (by simp [hk])
      simp only [List.map_cons, List.sum_cons]
      have h3 := congrArg₂ (· + ·) h1 h2
      beta_reduce at h3
      rw [add_zero] at h3
      refine Eq.trans ?_ h3
      abel
  have s2 : ∀ l : List Part, (∀ ia ∈ l, ia ∈ acts) → (l.map fun ia => boxMat en (extend es.length ia.axes (V ia))).sum + ((l.map fun ia => boxMat en (extend es.length ia.axes (V ia))).map fun m => mᴴ).sum = 0 := by
    intro l hl
    induction l with
    | nil => simp
    | cons a l ih =>
      have h1 := hact a (hl a (by simp))
      have h2 := ih fun k hk => hl k (by simp [hk])
      simp only [List.map_cons, List.sum_cons]
      have h3 := congrArg₂ (· + ·) h1 h2
      beta_reduce at h3
      rw [add_zero] at h3
      refine Eq.trans ?_ h3
      abel
  have h3 := congrArg₂ (· + ·) (s1 (List.range es.length) fun k hk => List.mem_range.1 hk) (s2 acts fun _ h => h)
  beta_reduce at h3
  rw [add_zero] at h3
  refine Eq.trans ?_ h3
  abel

/-- **C83.** Under the conditions of `composite_master`, the trace of the physical density operator of a composite of elements which conserve probability, coupled without losses, is constant. -/
theorem composite_trace (es : List Element) (acts : List Part) (h0 : es ≠ []) (hd : ∀ e ∈ es, 0 < e.dim) (w : ℕ → ℕ → ℂ) (H : ℕ → Dens) (J : ℕ → List Dens) (V : Part → Idx → Idx → ℂ)
    (hF : ∀ k e, es[k]? = some e → FreeIs e (w k) (H k) (J k) ∧ CommutesUpToPhase e.dim (w k) (J k))
    (hI : ∀ ia ∈ acts, ia.li = none ∧ ValidAxes es.length ia.axes ∧ 2 ≤ ia.axes.length ∧ Couples ia (ia.axes.map fun a => (es.map Element.dim).getD a 0) (ia.axes.map w) (V ia))
    (implemented : ℕ → Bool)
    (hS : ∀ k e L, es[k]? = some e → e.li = some L → ∀ j < (J k).length, implemented (((List.range k).map fun l => (J l).length).sum + j) = true →
      ∀ rho drhodt, ∃ d', L.actWithSuperoperator j rho drhodt = .ok d')
    (hsz : ((List.range es.length).map fun k => (J k).length).sum < 2 ^ 64) (en : Enum (composite es acts).lb (composite es acts).ub n)
    (hC : ∀ k e, es[k]? = some e → Conserving (mat e.dim (H k)) ((J k).map (mat e.dim))) (hV : ∀ ia ∈ acts, AntiHermitian (V ia)) :
    ConservesTrace ((composite es acts).toSys implemented en) :=
  FollowsMaster.conserves (composite_master es acts h0 hd w H J V hF hI implemented hS hsz en)
    (composite_conserving es acts h0 hd H J V hC (fun ia h => ⟨(hI ia h).2.1, hV ia h⟩) en)

/-! ## The loss of norm between the jumps -/

/-- `d‖φ‖²/dt = -Σ‖Jφ‖²`. -/
theorem norm_loss {ι : Type} (B : Finset ι) (H : ι → ι → ℂ) (J : List (ι → ι → ℂ))
    (hc : ∀ i ∈ B, ∀ j ∈ B, H i j + conj (H j i) + (J.map fun A => ∑ u ∈ B, conj (A u i) * A u j).sum = 0) (φ : ℝ → ι → ℂ) (t : ℝ)
    (h : ∀ i ∈ B, HasDerivAt (fun s => φ s i) (∑ j ∈ B, H i j * φ t j) t) :
    HasDerivAt (fun s => ∑ i ∈ B, Complex.normSq (φ s i)) (-(J.map fun A => ∑ i ∈ B, Complex.normSq (∑ j ∈ B, A i j * φ t j)).sum) t := by
  have hd : ∀ i ∈ B, HasDerivAt (fun s => conj (φ s i) * φ s i) (conj (∑ j ∈ B, H i j * φ t j) * φ t i + conj (φ t i) * ∑ j ∈ B, H i j * φ t j) t := by
    intro i hi
    have h1 := h i hi
    have h2 : HasDerivAt (fun s => conj (φ s i)) (conj (∑ j ∈ B, H i j * φ t j)) t := by
      exact h1.star
    exact h2.mul h1
  have hsum := HasDerivAt.fun_sum hd
  have hJ : ∀ A : ι → ι → ℂ, ((∑ i ∈ B, Complex.normSq (∑ j ∈ B, A i j * φ t j) : ℝ) : ℂ) = ∑ i ∈ B, ∑ j ∈ B, conj (φ t i) * (∑ u ∈ B, conj (A u i) * A u j) * φ t j := by
    intro A
    rw [Complex.ofReal_sum]
    have : ∀ u ∈ B, (Complex.normSq (∑ j ∈ B, A u j * φ t j) : ℂ) = ∑ i ∈ B, ∑ j ∈ B, conj (φ t i) * (conj (A u i) * A u j) * φ t j := by
      intro u _
      rw [← Complex.mul_conj, mul_comm, map_sum, Finset.sum_mul]
      refine Finset.sum_congr rfl fun i _ => ?_
      rw [Finset.mul_sum]
      refine Finset.sum_congr rfl fun j _ => ?_
      rw [map_mul]; ring
    rw [Finset.sum_congr rfl this, Finset.sum_comm]
    refine Finset.sum_congr rfl fun i _ => ?_
    rw [Finset.sum_comm]
    refine Finset.sum_congr rfl fun j _ => ?_
    rw [Finset.mul_sum, Finset.sum_mul]
  have hz : ∑ i ∈ B, (conj (∑ j ∈ B, H i j * φ t j) * φ t i + conj (φ t i) * ∑ j ∈ B, H i j * φ t j) =
      ((-(J.map fun A => ∑ i ∈ B, Complex.normSq (∑ j ∈ B, A i j * φ t j)).sum : ℝ) : ℂ) := by
    have e1 : ∑ i ∈ B, conj (∑ j ∈ B, H i j * φ t j) * φ t i = ∑ i ∈ B, ∑ j ∈ B, conj (φ t i) * conj (H j i) * φ t j := by
      conv_rhs => rw [Finset.sum_comm]
      refine Finset.sum_congr rfl fun i _ => ?_
      rw [map_sum, Finset.sum_mul]
      refine Finset.sum_congr rfl fun j _ => ?_
      rw [map_mul]; ring
    have e2 : ∑ i ∈ B, conj (φ t i) * ∑ j ∈ B, H i j * φ t j = ∑ i ∈ B, ∑ j ∈ B, conj (φ t i) * H i j * φ t j := by
      refine Finset.sum_congr rfl fun i _ => ?_
      rw [Finset.mul_sum]
      refine Finset.sum_congr rfl fun j _ => ?_
      ring
    have e3 : (((J.map fun A => ∑ i ∈ B, Complex.normSq (∑ j ∈ B, A i j * φ t j)).sum : ℝ) : ℂ) =
        ∑ i ∈ B, ∑ j ∈ B, conj (φ t i) * (J.map fun A => ∑ u ∈ B, conj (A u i) * A u j).sum * φ t j := by
      clear hc
      induction J with
      | nil => simp
      | cons A J ih =>
        simp only [List.map_cons, List.sum_cons, Complex.ofReal_add, hJ, ih, mul_add, add_mul, Finset.sum_add_distrib]
    rw [Complex.ofReal_neg, e3, Finset.sum_add_distrib, e1, e2, ← Finset.sum_add_distrib, ← Finset.sum_neg_distrib]
    refine Finset.sum_congr rfl fun i hi => ?_
    rw [← Finset.sum_add_distrib, ← Finset.sum_neg_distrib]
    refine Finset.sum_congr rfl fun j hj => ?_
    linear_combination conj (φ t i) * φ t j * hc i hi j hj
  rw [hz] at hsum
  have hre := Complex.reCLM.hasFDerivAt.comp_hasDerivAt t hsum
  simp only [Complex.reCLM_apply, Complex.ofReal_re] at hre
  refine hre.congr_of_eventuallyEq (Filter.Eventually.of_forall fun s => ?_)
  simp only [Function.comp, Complex.reCLM_apply, Complex.re_sum]
  refine Finset.sum_congr rfl fun i _ => ?_
  rw [mul_comm (conj _), Complex.mul_conj, Complex.ofReal_re]

/-- The condition in matrix elements. -/
theorem conserving_box {lb ub : Idx} (en : Enum lb ub n) {H : Idx → Idx → ℂ} {J : List (Idx → Idx → ℂ)} (h : Conserving (boxMat en H) (J.map (boxMat en))) : ConservingOn lb ub H J := by
  intro s s' hs hs'
  obtain ⟨x, hx⟩ : ∃ x, (en x : Idx) = s := ⟨en.symm ⟨s, hs⟩, by simp⟩
  obtain ⟨y, hy⟩ : ∃ y, (en y : Idx) = s' := ⟨en.symm ⟨s', hs'⟩, by simp⟩
  have h1 := congrFun (congrFun h x) y
  have h2 : ∀ J : List (Idx → Idx → ℂ), ((J.map (boxMat en)).map fun j => jᴴ * j).sum x y = (J.map fun j => ∑ u ∈ boxFinset lb ub, conj (j u s) * j u s').sum := by
    intro J
    induction J with
    | nil => simp
    | cons j J ih =>
      simp only [List.map_cons, List.sum_cons, Matrix.add_apply]
      rw [ih, sum_enum en, Matrix.mul_apply]
      simp [boxMat, hx, hy]
  rw [Matrix.neg_apply, h2, Matrix.add_apply, eq_neg_iff_add_eq_zero] at h1
  simpa [boxMat, hx, hy] using h1

/-- **C85.** The state of a composite of elements which conserve the probability, coupled without losses, loses its norm between the jumps at the total rate of the jumps. -/
theorem composite_norm_loss (es : List Element) (acts : List Part) (h0 : es ≠ []) (hd : ∀ e ∈ es, 0 < e.dim) (w : ℕ → ℕ → ℂ) (H : ℕ → Dens) (J : ℕ → List Dens) (V : Part → Idx → Idx → ℂ)
    (hF : ∀ k e, es[k]? = some e → FreeIs e (w k) (H k) (J k) ∧ Conserving (mat e.dim (H k)) ((J k).map (mat e.dim)))
    (hI : ∀ ia ∈ acts, ValidAxes es.length ia.axes ∧ 2 ≤ ia.axes.length ∧ Couples ia (ia.axes.map fun a => (es.map Element.dim).getD a 0) (ia.axes.map w) (V ia) ∧ AntiHermitian (V ia)) :
    CompLoses (composite es acts) ((List.range es.length).flatMap fun k => (J k).map fun j => extend es.length [k] (Spec.single j)) := by
  have hs := composite_simulates es acts h0 hd w H V (fun k e h => ⟨J k, (hF k e h).1⟩) fun ia h => ⟨(hI ia h).1, (hI ia h).2.1, (hI ia h).2.2.1⟩
  have hl : (composite es acts).ub.length = (composite es acts).lb.length := (validBounds_of es h0 hd).2.1
  let en : Enum (composite es acts).lb (composite es acts).ub _ := (boxFinset (composite es acts).lb (composite es acts).ub).equivFin.symm
  have hc := composite_conserving es acts h0 hd H J V (fun k e h => (hF k e h).2) (fun ia h => ⟨(hI ia h).1, (hI ia h).2.2.2⟩) en
  have hc' := conserving_box en (J := (List.range es.length).flatMap fun k => (J k).map fun j => extend es.length [k] (Spec.single j)) (by
    rw [List.map_flatMap]
    simpa only [List.map_map, Function.comp_def] using hc)
  intro t0 t psi hpsi
  exact norm_loss _ _ _ (fun i hi j hj => hc' i j hi hj) (fun s i => (composite es acts).actWithU s t0 (psi s) i) t fun i hi => (hs t0 t psi hpsi i ((mem_boxFinset _ _ _ hl).1 hi)).2

/-! ## Binary systems -/

/-- An interaction which has only a Hamiltonian part, does not use anything from outside of the bounds. -/
theorem couples_inBounds {ia : Part} {dims : List ℕ} {ws : List (ℕ → ℂ)} {H : Idx → Idx → ℂ} (h : Couples ia dims ws H) (hli : ia.li = none) (hav : ia.av = none) :
    InBounds (lower dims) (upper dims) ia where
  ha f hf t t0 := by
    have h := h.2 t t0
    rw [hf] at h
    simp only at h
    constructor
    · intro d psi psi' hp i hi
      beta_reduce
      rw [h psi d i hi, h psi' d i hi]
      unfold matAction
      congr 1
      refine Finset.sum_congr rfl fun j hj => ?_
      rw [hp j ((mem_boxFinset _ _ _ (lower_length _)).1 hj)]
    · intro psi d d' hd i hi
      rw [h psi d i hi, h psi d' i hi, hd i hi]
  ex f hf := by rw [h.1] at hf; simp at hf
  jump li hl := by rw [hli] at hl; simp at hl
  super li hl := by rw [hli] at hl; simp at hl
  average tag t m m' _ := by cases tag <;> simp [Composite.average, getLA, hli, hav]

/-- The two elements, and what is required of them in the Master equation. -/
def MasterFree (e : Element) (w : ℕ → ℂ) (H : Dens) (J : List Dens) : Prop :=
  0 < e.dim ∧ FreeIs e w H J ∧ CommutesUpToPhase e.dim w J ∧ ∀ L, e.li = some L → ∀ j < J.length, ∀ rho drhodt, ∃ d', L.actWithSuperoperator j rho drhodt = .ok d'

section binary
variable (e0 e1 : Element) (ia : Part) (d0 : 0 < e0.dim) (d1 : 0 < e1.dim) (en : Enum (binary e0 e1 ia).lb (binary e0 e1 ia).ub n)
include d0 d1

theorem binary_bounds : ValidBounds (binary e0 e1 ia).lb (binary e0 e1 ia).ub := validBounds_of [e0, e1] (by simp) (by simp [d0, d1])

theorem binary_index (k : Fin n) : (en k : Idx).length = 2 ∧ ∀ a < 2, 0 ≤ (en k : Idx).getD a 0 := by
  have hk := enum_box (binary_bounds e0 e1 ia d0 d1).2.1 en k
  refine ⟨hk.1, fun a ha => ?_⟩
  exact (getD_nonneg [e0, e1] (i := (en k : Idx)) hk (a := a) (e := [e0, e1][a]) (List.getElem?_eq_getElem ha)).1

theorem binary_tensor0 (A : Dens) : boxMat en (extend 2 [0] (Spec.single A)) = boxMat en (tensor A one) := by
  ext x y
  have hx := binary_index e0 e1 ia d0 d1 en x
  have hy := binary_index e0 e1 ia d0 d1 en y
  exact extend_tensor0 A hx.1 hy.1 fun a ha => ⟨hx.2 a ha, hy.2 a ha⟩

theorem binary_tensor1 (A : Dens) : boxMat en (extend 2 [1] (Spec.single A)) = boxMat en (tensor one A) := by
  ext x y
  have hx := binary_index e0 e1 ia d0 d1 en x
  have hy := binary_index e0 e1 ia d0 d1 en y
  exact extend_tensor1 A hx.1 hy.1 fun a ha => ⟨hx.2 a ha, hy.2 a ha⟩

theorem binary_hamiltonian (HH : ℕ → Dens) (H : Idx → Idx → ℂ) :
    (boxMat en fun i j => ∑ k ∈ Finset.range 2, extend 2 [k] (Spec.single (HH k)) i j + ([{ ia with axes := [0, 1] }].map fun ia : Part => extend 2 ia.axes H i j).sum) =
      boxMat en fun i j => tensor (HH 0) one i j + tensor one (HH 1) i j + H i j := by
  ext x y
  have a0 := congrFun (congrFun (binary_tensor0 e0 e1 ia d0 d1 en (HH 0)) x) y
  have a1 := congrFun (congrFun (binary_tensor1 e0 e1 ia d0 d1 en (HH 1)) x) y
  simp only [boxMat, Matrix.of_apply] at a0 a1 ⊢
  have a2 : extend 2 [0, 1] H (en x) (en y) = H (en x) (en y) := by
    unfold extend
    rw [if_pos (by intro a ha hn; interval_cases a <;> simp at hn)]
    congr 1
    · exact coords_all (r := 2) (binary_index e0 e1 ia d0 d1 en x).1
    · exact coords_all (r := 2) (binary_index e0 e1 ia d0 d1 en y).1
  rw [Finset.sum_range_succ, Finset.sum_range_one]
  simp only [List.map_cons, List.map_nil, List.sum_cons, List.sum_nil, add_zero, a2]
  rw [← a0, ← a1]

theorem binary_jumps (JJ : ℕ → List Dens) : ((List.range 2).flatMap fun k => (JJ k).map fun j => boxMat en (extend 2 [k] (Spec.single j))) =
      (JJ 0).map (fun j => boxMat en (tensor j one)) ++ (JJ 1).map (fun j => boxMat en (tensor one j)) := by
  simp only [List.range_succ, List.range_zero, List.nil_append, List.cons_append, List.flatMap_cons, List.flatMap_nil, List.append_nil, binary_tensor0 e0 e1 ia d0 d1 en, binary_tensor1 e0 e1 ia d0 d1 en]

/-- Two elements which conserve the probability, coupled without losses. -/
theorem binary_conserving {H0 H1 : Dens} {J0 J1 : List Dens} {H : Idx → Idx → ℂ} (c0 : Conserving (mat e0.dim H0) (J0.map (mat e0.dim))) (c1 : Conserving (mat e1.dim H1) (J1.map (mat e1.dim)))
    (hH : AntiHermitian H) :
    Conserving (boxMat en fun i j => tensor H0 one i j + tensor one H1 i j + H i j) (J0.map (fun j => boxMat en (tensor j one)) ++ J1.map (fun j => boxMat en (tensor one j))) := by
  have hc := composite_conserving [e0, e1] [{ ia with axes := [0, 1] }] (by simp) (by simp [d0, d1]) (fun k => if k = 0 then H0 else H1) (fun k => if k = 0 then J0 else J1) (fun _ => H) (by
    intro k e h
    rcases k with _ | _ | k
    · simp only [List.getElem?_cons_zero, Option.some.injEq] at h; subst h; exact c0
    · simp only [List.getElem?_cons_succ, List.getElem?_cons_zero, Option.some.injEq] at h; subst h; exact c1
    · simp at h) (by
    intro ia' h
    simp only [List.mem_cons, List.not_mem_nil, or_false] at h
    subst h
    exact ⟨⟨by simp, by simp, by simp⟩, hH⟩) en
  have e1' := binary_hamiltonian e0 e1 ia d0 d1 en (fun k => if k = 0 then H0 else H1) H
  have e2' := binary_jumps e0 e1 ia d0 d1 en (fun k => if k = 0 then J0 else J1)
  simp only [if_true, if_false, one_ne_zero] at e1' e2'
  rw [← e1', ← e2']
  exact hc

omit en in
/-- **C85.** The same for binary systems. -/
theorem binary_norm_loss {w0 w1 : ℕ → ℂ} {H0 H1 : Dens} {J0 J1 : List Dens} {H : Idx → Idx → ℂ} (h0 : FreeIs e0 w0 H0 J0) (h1 : FreeIs e1 w1 H1 J1) (hI : Couples ia [e0.dim, e1.dim] [w0, w1] H)
    (c0 : Conserving (mat e0.dim H0) (J0.map (mat e0.dim))) (c1 : Conserving (mat e1.dim H1) (J1.map (mat e1.dim))) (hH : AntiHermitian H) :
    BinLoses (binary e0 e1 ia) (J0.map (fun j => tensor j one) ++ J1.map (fun j => tensor one j)) := by
  have hs := binary_simulates e0 e1 ia d0 d1 h0 h1 hI
  have hl := (binary_bounds e0 e1 ia d0 d1).2.1
  let en : Enum (binary e0 e1 ia).lb (binary e0 e1 ia).ub _ := (boxFinset (binary e0 e1 ia).lb (binary e0 e1 ia).ub).equivFin.symm
  have hc' := conserving_box en (J := J0.map (fun j => tensor j one) ++ J1.map (fun j => tensor one j)) (by
    rw [List.map_append]
    simpa only [List.map_map, Function.comp_def] using binary_conserving e0 e1 ia d0 d1 en c0 c1 hH)
  intro t0 t psi hpsi
  exact norm_loss _ _ _ (fun i hi j hj => hc' i j hi hj) (fun s i => (binary e0 e1 ia).actWithU s t0 (psi s) i) t fun i hi => (hs t0 t psi hpsi i ((mem_boxFinset _ _ _ hl).1 hi)).2

end binary

/-- **C83, C84.** Binary systems in the Master equation. -/
theorem binary_master (e0 e1 : Element) (ia : Part) {w0 w1 : ℕ → ℂ} {H0 H1 : Dens} {J0 J1 : List Dens} {H : Idx → Idx → ℂ} (h0 : MasterFree e0 w0 H0 J0) (h1 : MasterFree e1 w1 H1 J1)
    (hI : Couples ia [e0.dim, e1.dim] [w0, w1] H) (hli : ia.li = none) (hav : ia.av = none) (implemented : ℕ → Bool) (hsz : J0.length + J1.length < 2 ^ 64)
    (en : Enum (binary e0 e1 ia).lb (binary e0 e1 ia).ub n) :
    FollowsMaster ((binary e0 e1 ia).toSys implemented en) (boxMat en fun i j => tensor H0 one i j + tensor one H1 i j + H i j)
      (J0.map (fun j => boxMat en (tensor j one)) ++ J1.map (fun j => boxMat en (tensor one j))) ∧
    (Conserving (mat e0.dim H0) (J0.map (mat e0.dim)) → Conserving (mat e1.dim H1) (J1.map (mat e1.dim)) → AntiHermitian H → ConservesTrace ((binary e0 e1 ia).toSys implemented en)) := by
  let es := [e0, e1]
  let acts : List Part := [{ ia with axes := [0, 1] }]
  have hes : es ≠ [] := by simp [es]
  have hd : ∀ e ∈ es, 0 < e.dim := by
    intro e he
    simp only [es, List.mem_cons, List.not_mem_nil, or_false] at he
    rcases he with rfl | rfl
    · exact h0.1
    · exact h1.1
  have hb : ValidBounds (binary e0 e1 ia).lb (binary e0 e1 ia).ub := validBounds_of es hes hd
  let w : ℕ → ℕ → ℂ := fun k => if k = 0 then w0 else w1
  let HH : ℕ → Dens := fun k => if k = 0 then H0 else H1
  let JJ : ℕ → List Dens := fun k => if k = 0 then J0 else J1
  have hcase : ∀ k e, es[k]? = some e → (k = 0 ∧ e = e0) ∨ (k = 1 ∧ e = e1) := by
    intro k e h
    rcases k with _ | _ | k
    · left; simpa [es, eq_comm] using h
    · right; simpa [es, eq_comm] using h
    · simp [es] at h
  have hF : ∀ k e, es[k]? = some e → FreeIs e (w k) (HH k) (JJ k) ∧ CommutesUpToPhase e.dim (w k) (JJ k) := by
    intro k e h
    rcases hcase k e h with ⟨rfl, rfl⟩ | ⟨rfl, rfl⟩
    · exact ⟨h0.2.1, h0.2.2.1⟩
    · exact ⟨h1.2.1, h1.2.2.1⟩
  have hacts : ∀ ia' ∈ acts, ia'.li = none ∧ ValidAxes es.length ia'.axes ∧ 2 ≤ ia'.axes.length ∧ Couples ia' (ia'.axes.map fun a => (es.map Element.dim).getD a 0) (ia'.axes.map w) H := by
    intro ia' h
    simp only [acts, List.mem_cons, List.not_mem_nil, or_false] at h
    subst h
    exact ⟨hli, ⟨by simp, by simp, by simp [es]⟩, by simp, hI⟩
  have hS : ∀ k e L, es[k]? = some e → e.li = some L → ∀ j < (JJ k).length, implemented (((List.range k).map fun l => (JJ l).length).sum + j) = true →
      ∀ rho drhodt, ∃ d', L.actWithSuperoperator j rho drhodt = .ok d' := by
    intro k e L h hl j hj _
    rcases hcase k e h with ⟨rfl, rfl⟩ | ⟨rfl, rfl⟩
    · exact h0.2.2.2 L hl j hj
    · exact h1.2.2.2 L hl j hj
  have key := composite_master es acts hes hd w HH JJ (fun _ => H) hF hacts implemented hS (by simpa [es, JJ, List.range_succ] using hsz) en
  -- the composite and the binary system
  have hIn : InBounds (binary e0 e1 ia).lb (binary e0 e1 ia).ub (binary e0 e1 ia).ia := couples_inBounds hI hli hav
  obtain ⟨-, -, hder, hexp⟩ := bin_toSys (binary e0 e1 ia) hb rfl hIn (Or.inr (Or.inr hli)) (by
    have f0 : LiIs e0 J0 := by obtain ⟨_, -, -, h, -⟩ := h0.2.1; exact h
    have f1 : LiIs e1 J1 := by obtain ⟨_, -, -, h, -⟩ := h1.2.1; exact h
    have e0' := freePart_nAvr f0 0
    have e1' := freePart_nAvr f1 0
    have e0'' : nAvr .li (freePart e0) = J0.length := e0'
    have e1'' : nAvr .li (freePart e1) = J1.length := e1'
    simp only [Bin.nAvr, binary, e0'', e1'']
    simp [nAvr, getLA, hli]
    omega) implemented en
  have hfol : ∀ A B, FollowsMaster ((composite es acts).toSys implemented en) A B → FollowsMaster ((binary e0 e1 ia).toSys implemented en) A B := by
    intro A B h t0 t rho hr hd i j
    have := h t0 t rho hr (fun i j => by have := hd i j; rw [hder] at this; exact this) i j
    simp only [hexp]
    exact this
  have e1' := binary_hamiltonian e0 e1 ia h0.1 h1.1 en HH H
  have e2' := binary_jumps e0 e1 ia h0.1 h1.1 en JJ
  have hfin := hfol _ _ key
  refine ⟨by
    have : FollowsMaster ((binary e0 e1 ia).toSys implemented en) (boxMat en fun i j => tensor (HH 0) one i j + tensor one (HH 1) i j + H i j)
      ((JJ 0).map (fun j => boxMat en (tensor j one)) ++ (JJ 1).map (fun j => boxMat en (tensor one j))) := by
      rw [← e1', ← e2']; exact hfin
    exact this, fun c0 c1 hH => FollowsMaster.conserves hfin ?_⟩
  have := binary_conserving e0 e1 ia h0.1 h1.1 en c0 c1 hH
  have h2 : Conserving (boxMat en fun i j => tensor (HH 0) one i j + tensor one (HH 1) i j + H i j)
      ((JJ 0).map (fun j => boxMat en (tensor j one)) ++ (JJ 1).map (fun j => boxMat en (tensor one j))) := this
  rw [← e1', ← e2'] at h2
  exact h2

/-! ## Modes and qbits -/

theorem elementExact_fields {p : ModeEl.Pars} {zI : ℂ} {li : Option Liouvillean} {e : Element} (h : elementExact p zI li = .ok e) : e.li = li ∧ (e.exApplicable = true ↔ zI.re = 0) := by
  unfold elementExact at h
  injection h with h
  subst h
  exact ⟨rfl, by simp⟩

theorem bind_ok {α β : Type} {o : Outcome α} {f : α → Outcome β} {b : β} (h : o.bind f = .ok b) : ∃ a, o = .ok a ∧ f a = .ok b := by
  cases o with
  | ok a => exact ⟨a, rfl, h⟩
  | _ => simp [Outcome.bind] at h

theorem elementIP_fields {p : ModeEl.Pars} {zSch zI eta : ℂ} {li : Option Liouvillean} {e : Element} (h : elementIP p zSch zI eta li = .ok e) : e.li = li ∧ (e.exApplicable = true ↔ zI.re = 0) := by
  unfold elementIP at h
  obtain ⟨H, -, h⟩ := bind_ok h
  injection h with h
  subst h
  exact ⟨rfl, by simp⟩

theorem elementSch_fields {p : ModeEl.Pars} {zSch eta : ℂ} {li : Option Liouvillean} {e : Element} (h : elementSch p zSch eta li = .ok e) : e.li = li ∧ e.exApplicable = true := by
  unfold elementSch at h
  obtain ⟨H, -, h⟩ := bind_ok h
  injection h with h
  subst h
  exact ⟨rfl, rfl⟩

/-- The modes of all kinds: their Liouvillean part, and when they can be used in Master-equation trajectories. -/
theorem makePumpedLossy_fields {p : ModeEl.Pars} {qmp : Picture} {e : Element} (h : makePumpedLossy p qmp = .ok e) :
    (e.li = none ∨ ∃ b, e.li = some (liouvillean b p)) ∧ (qmp ≠ .ip ∨ p.kappa = 0 → e.exApplicable = true) := by
  unfold makePumpedLossy makePumped makeLossy makeFree at h
  by_cases hk : p.kappa = 0
  · simp only [if_pos hk] at h
    by_cases he : p.eta = 0
    · simp only [if_pos he] at h
      cases qmp with
      | ip => have := elementExact_fields h; simp_all
      | uip => have := elementExact_fields h; simp_all
      | sch => have := elementSch_fields h; simp_all
    · simp only [if_neg he] at h
      unfold pumpedMode at h
      cases qmp with
      | ip => have := elementIP_fields h; simp_all
      | uip => have := elementIP_fields h; simp_all
      | sch => have := elementSch_fields h; simp_all
  · simp only [if_neg hk] at h
    by_cases he : p.eta = 0
    · simp only [if_pos he] at h
      unfold lossyMode at h
      cases qmp with
      | ip => have := elementExact_fields h; exact ⟨Or.inr ⟨_, this.1⟩, by simp [hk]⟩
      | uip => have := elementIP_fields h; exact ⟨Or.inr ⟨_, this.1⟩, fun _ => this.2.2 rfl⟩
      | sch => have := elementSch_fields h; exact ⟨Or.inr ⟨_, this.1⟩, fun _ => this.2⟩
    · simp only [if_neg he] at h
      unfold pumpedLossyMode at h
      cases qmp with
      | ip => have := elementIP_fields h; exact ⟨Or.inr ⟨_, this.1⟩, by simp [hk]⟩
      | uip => have := elementIP_fields h; exact ⟨Or.inr ⟨_, this.1⟩, fun _ => this.2.2 rfl⟩
      | sch => have := elementSch_fields h; exact ⟨Or.inr ⟨_, this.1⟩, fun _ => this.2⟩

theorem qbit_fields {p : QbitEl.Pars} {qmp : Picture} {e : Element} (h : QbitEl.make p qmp = .ok e) :
    (e.li = none ∨ e.li = some (QbitEl.liouvillean p.gamma)) ∧ (qmp ≠ .ip ∨ p.gamma = 0 → e.exApplicable = true) := by
  cases qmp with
  | ip =>
    simp only [QbitEl.make] at h
    split_ifs at h with h1 h2 h3
    · have := elementExact_fields h; simp_all
    · have := elementIP_fields h; simp_all
    · have := elementExact_fields h; simp_all
    · have := elementIP_fields h; simp_all
  | uip =>
    simp only [QbitEl.make] at h
    split_ifs at h with h1 h2 h3
    · have := elementExact_fields h; simp_all
    · have := elementIP_fields h; simp_all
    · have := elementIP_fields h; simp_all
    · have := elementIP_fields h; simp_all
  | sch =>
    simp only [QbitEl.make] at h
    split_ifs at h with h1 h2 h3 <;> have := elementSch_fields h <;> simp_all

theorem liouvillean_super (b : Bool) (p : ModeEl.Pars) (j : ℕ) (hj : j < (liouvillean b p).labels.length) (rho drhodt : Dens) : ∃ d', (liouvillean b p).actWithSuperoperator j rho drhodt = .ok d' := by
  cases b with
  | false =>
    have : j = 0 := by simpa [liouvillean, liouvilleanZeroT, elementLiouvillean] using hj
    subst this
    exact ⟨_, rfl⟩
  | true =>
    have : j < 2 := by simpa [liouvillean, liouvilleanFiniteT, elementLiouvillean] using hj
    interval_cases j
    · exact ⟨_, rfl⟩
    · exact ⟨_, rfl⟩

/-- In the Schrödinger picture, in the unitary interaction picture, and without losses, the phases. -/
theorem mode_phases (p : ModeEl.Pars) (hK : p.omegaKerr = 0) (qmp : Picture) (h : qmp ≠ .ip ∨ p.kappa = 0) (d : ℕ) (κ n : ℝ) : CommutesUpToPhase d (modePtr p qmp).w (modeJ κ n) := by
  cases qmp with
  | ip =>
    have hk : p.kappa = 0 := by simpa using h
    simp only [modePtr, ModePtr.w, hK, if_pos hk]
    exact phase d _ rfl κ n
  | uip =>
    simp only [modePtr, ModePtr.w, hK]
    exact phase d _ rfl κ n
  | sch => exact fun j _ t => phase_one d j t

theorem qbit_phases (p : QbitEl.Pars) (qmp : Picture) (h : qmp ≠ .ip ∨ p.gamma = 0) (d : ℕ) (κ n : ℝ) : CommutesUpToPhase d (qbitPtr p qmp).w (modeJ κ n) := by
  cases qmp with
  | ip => exact phase d _ (by simpa using h) κ n
  | uip => exact phase d _ rfl κ n
  | sch => exact fun j _ t => phase_one d j t

/-- The free elements in the Master equation. -/
theorem mode_masterFree (p : ModeEl.Pars) (hd : p.cutoff < 2 ^ 63) (h0 : 0 < p.cutoff) (hκ : 0 ≤ p.kappa) (hn : 0 ≤ p.nTh) (hK : p.omegaKerr = 0) (hA : p.omegaKerrAlter = 0) (qmp : Picture)
    (hp : qmp ≠ .ip ∨ p.kappa = 0) : ∃ e, makePumpedLossy p qmp = .ok e ∧ e.dim = p.cutoff ∧ e.exApplicable = true ∧
      MasterFree e (modePtr p qmp).w (modeH (p.kappa * (2 * p.nTh + 1)) p.delta p.eta) (modeJ p.kappa p.nTh) := by
  obtain ⟨e, b1, b2, b3⟩ := mode_free p hd h0 hκ hn hK hA qmp
  obtain ⟨f1, f2⟩ := makePumpedLossy_fields b1
  refine ⟨e, b1, b2, f2 hp, by rw [b2]; exact h0, b3, mode_phases p hK qmp hp _ _ _, fun L hL j hj rho drhodt => ?_⟩
  obtain ⟨_, -, -, hLi, -⟩ := b3
  rcases f1 with f1 | ⟨b, f1⟩
  · rw [f1] at hL; simp at hL
  · unfold LiIs at hLi
    rw [hL] at hLi
    rw [f1] at hL
    injection hL with hL
    subst hL
    exact liouvillean_super b p j (by rw [hLi.1]; exact hj) rho drhodt

theorem qbit_masterFree (p : QbitEl.Pars) (hγ : 0 ≤ p.gamma) (qmp : Picture) (hp : qmp ≠ .ip ∨ p.gamma = 0) : ∃ e, QbitEl.make p qmp = .ok e ∧ e.dim = 2 ∧ e.exApplicable = true ∧
      MasterFree e (qbitPtr p qmp).w (qbitH p.gamma p.delta p.eta) (modeJ p.gamma 0) := by
  obtain ⟨e, b1, b2, b3⟩ := qbit_free_jumps p hγ qmp
  obtain ⟨f1, f2⟩ := qbit_fields b1
  refine ⟨e, b1, b2, f2 hp, by rw [b2]; norm_num, b3, qbit_phases p qmp hp _ _ _, fun L hL j hj rho drhodt => ?_⟩
  obtain ⟨_, -, -, hLi, -⟩ := b3
  rcases f1 with f1 | f1
  · rw [f1] at hL; simp at hL
  · unfold LiIs at hLi
    rw [hL] at hLi
    rw [f1] at hL
    injection hL with hL
    subst hL
    exact liouvillean_super false ⟨2, 0, 0, 0, p.gamma, 0, 0⟩ j (by have := hLi.1; rw [← this] at hj; exact hj) rho drhodt

theorem jaynesCummings_fields {axes : List ℕ} {S : Outcome Tri} {m : ModePtr} {g : ℂ} {ia : Part} (h : jaynesCummings axes S m g = .ok ia) : ia.li = none ∧ ia.av = none ∧ ia.ex = none ∧ ia.applicable = true := by
  unfold jaynesCummings at h
  split_ifs at h
  · obtain ⟨_, -, h⟩ := bind_ok h
    injection h with h; subst h; exact ⟨rfl, rfl, rfl, rfl⟩
  · injection h with h; subst h; exact ⟨rfl, rfl, rfl, rfl⟩

/-- **C83.** The Jaynes-Cummings system of a qbit and a mode with all their pumps and losses in Master-equation trajectories: in any pair of pictures of which both or none is the Schrödinger picture,
lossy elements not being in the interaction picture that includes the losses. -/
theorem jaynesCummings_master (pq : QbitEl.Pars) (pm : ModeEl.Pars) (g : ℂ) (qmq qmm : Picture) (hq : qmq = .sch ↔ qmm = .sch) (hγ : 0 ≤ pq.gamma)
    (hd : pm.cutoff < 2 ^ 63) (h0 : 0 < pm.cutoff) (hκ : 0 ≤ pm.kappa) (hn : 0 ≤ pm.nTh) (hK : pm.omegaKerr = 0) (hA : pm.omegaKerrAlter = 0)
    (hpq : qmq ≠ .ip ∨ pq.gamma = 0) (hpm : qmm ≠ .ip ∨ pm.kappa = 0) :
    ∃ e0 e1 ia, QbitEl.make pq qmq = .ok e0 ∧ makePumpedLossy pm qmm = .ok e1 ∧ jaynesCummings [0, 1] (aop (qbitPtr pq qmq)) (modePtr pm qmm) g = .ok ia ∧
      (binary e0 e1 ia).applicableInMaster = true ∧
      ∀ (implemented : ℕ → Bool) (n : ℕ) (en : Enum (binary e0 e1 ia).lb (binary e0 e1 ia).ub n),
        FollowsMaster ((binary e0 e1 ia).toSys implemented en)
          (boxMat en fun i j => tensor (qbitH pq.gamma pq.delta pq.eta) one i j + tensor one (modeH (pm.kappa * (2 * pm.nTh + 1)) pm.delta pm.eta) i j + jcH g sigma sigmaDag i j)
          ((modeJ pq.gamma 0).map (fun j => boxMat en (tensor j one)) ++ (modeJ pm.kappa pm.nTh).map (fun j => boxMat en (tensor one j))) ∧
        (pm.nTh = 0 → ConservesTrace ((binary e0 e1 ia).toSys implemented en)) := by
  obtain ⟨e0, a1, a2, a3, a4⟩ := qbit_masterFree pq hγ qmq hpq
  obtain ⟨e1, b1, b2, b3, b4⟩ := mode_masterFree pm hd h0 hκ hn hK hA qmm hpm
  obtain ⟨S, s1, s2, s3⟩ := aop_qbit pq qmq
  obtain ⟨ia, i1, -, i3⟩ := jaynesCummings_couples (modePtr pm qmm) (by rw [modePtr_dim]; exact hd) (by rw [modePtr_dim]; exact h0) s2
    (by rw [modePtr_exact, ← show decide (qmq ≠ .sch) = decide (qmm ≠ .sch) by simp only [ne_eq, hq], ← qbitPtr_exact pq]; exact s3) [0, 1] g
  have hs : (fun i j => conj (sigma j i)) = sigmaDag := by
    funext i j; simp only [sigma, sigmaDag]; split_ifs <;> simp_all
  rw [hs, modePtr_dim] at i3
  obtain ⟨l1, l2, l3, l4⟩ := jaynesCummings_fields i1
  have hlen : ∀ κ n : ℝ, (modeJ κ n).length ≤ 2 := by intro κ n; unfold modeJ; split_ifs <;> simp
  rw [s1]
  refine ⟨e0, e1, ia, a1, b1, i1, ?_, fun implemented n en => ?_⟩
  · simp [Bin.applicableInMaster, Composite.applicableInMaster, binary, freePart, a3, b3, l4]
    exact ⟨⟨by split <;> rfl, by split <;> rfl⟩, by split <;> rfl⟩
  · obtain ⟨m1, m2⟩ := binary_master e0 e1 ia a4 b4 (by rw [a2, b2]; exact i3) l1 l2 implemented (by have := hlen pq.gamma 0; have := hlen pm.kappa pm.nTh; omega) en
    refine ⟨m1, fun hT => m2 ?_ ?_ (antiHermitian_jcH g sigma sigmaDag fun i j => congrFun (congrFun hs i) j)⟩
    · rw [a2]
      have := mode_conserving 2 (by norm_num) pq.gamma hγ pq.delta (-pq.eta)
      rwa [QbitEl.qbitH_eq] at this
    · rw [b2, hT]
      have := mode_conserving pm.cutoff h0 pm.kappa hκ pm.delta pm.eta
      simpa using this

/-- **C85.** The Jaynes-Cummings system in quantum trajectories, in any pair of pictures of which both or none is the Schrödinger picture: at zero temperature, the norm decreases at the total rate of the
two jumps. -/
theorem jaynesCummings_norm_loss (pq : QbitEl.Pars) (pm : ModeEl.Pars) (g : ℂ) (qmq qmm : Picture) (hq : qmq = .sch ↔ qmm = .sch) (hγ : 0 ≤ pq.gamma)
    (hd : pm.cutoff < 2 ^ 63) (h0 : 0 < pm.cutoff) (hκ : 0 ≤ pm.kappa) (hn : pm.nTh = 0) (hK : pm.omegaKerr = 0) (hA : pm.omegaKerrAlter = 0) :
    ∃ e0 e1 ia, QbitEl.make pq qmq = .ok e0 ∧ makePumpedLossy pm qmm = .ok e1 ∧ jaynesCummings [0, 1] (aop (qbitPtr pq qmq)) (modePtr pm qmm) g = .ok ia ∧
      BinLoses (binary e0 e1 ia) ((modeJ pq.gamma 0).map (fun j => tensor j one) ++ (modeJ pm.kappa 0).map (fun j => tensor one j)) := by
  obtain ⟨e0, a1, a2, a3⟩ := qbit_free_jumps pq hγ qmq
  obtain ⟨e1, b1, b2, b3⟩ := mode_free pm hd h0 hκ hn.symm.le hK hA qmm
  obtain ⟨S, s1, s2, s3⟩ := aop_qbit pq qmq
  obtain ⟨ia, i1, -, i3⟩ := jaynesCummings_couples (modePtr pm qmm) (by rw [modePtr_dim]; exact hd) (by rw [modePtr_dim]; exact h0) s2
    (by rw [modePtr_exact, ← show decide (qmq ≠ .sch) = decide (qmm ≠ .sch) by simp only [ne_eq, hq], ← qbitPtr_exact pq]; exact s3) [0, 1] g
  have hs : (fun i j => conj (sigma j i)) = sigmaDag := by
    funext i j; simp only [sigma, sigmaDag]; split_ifs <;> simp_all
  rw [hs, modePtr_dim] at i3
  rw [s1]
  refine ⟨e0, e1, ia, a1, b1, i1, ?_⟩
  rw [hn] at b3
  refine binary_norm_loss e0 e1 ia (by rw [a2]; norm_num) (by rw [b2]; exact h0) a3 b3 (by rw [a2, b2]; exact i3) ?_ ?_ (antiHermitian_jcH g sigma sigmaDag fun i j => congrFun (congrFun hs i) j)
  · rw [a2]
    have := mode_conserving 2 (by norm_num) pq.gamma hγ pq.delta (-pq.eta)
    rwa [QbitEl.qbitH_eq] at this
  · rw [b2]
    have := mode_conserving pm.cutoff h0 pm.kappa hκ pm.delta pm.eta
    simpa using this

example : ∃ e0 e1 ia, QbitEl.make ⟨-10, 2, 0, Complex.I⟩ .ip = .ok e0 ∧ makePumpedLossy ⟨10, 1, 0, 0, 2, 0, 3⟩ .ip = .ok e1 ∧
    BinLoses (binary e0 e1 ia) ((modeJ 2 0).map (fun j => tensor j one) ++ (modeJ 2 0).map (fun j => tensor one j)) :=
  let ⟨e0, e1, ia, h1, h2, _, h4⟩ := jaynesCummings_norm_loss ⟨-10, 2, 0, Complex.I⟩ ⟨10, 1, 0, 0, 2, 0, 3⟩ (1 + Complex.I) .ip .ip (by simp) (by norm_num) (by norm_num) (by norm_num)
    (by norm_num) rfl rfl rfl
  ⟨e0, e1, ia, h1, h2, h4⟩

/-- A pumped lossy qbit in the unitary interaction picture in a cavity with losses. -/
example : ∃ e0 e1 ia, QbitEl.make ⟨-10, 2, 0, Complex.I⟩ .uip = .ok e0 ∧ makePumpedLossy ⟨10, 1, 0, 0, 2, 0, 3⟩ .uip = .ok e1 ∧ (binary e0 e1 ia).applicableInMaster = true ∧
    ∀ (implemented : ℕ → Bool) (n : ℕ) (en : Enum (binary e0 e1 ia).lb (binary e0 e1 ia).ub n), ConservesTrace ((binary e0 e1 ia).toSys implemented en) :=
  let ⟨e0, e1, ia, h1, h2, _, h4, h5⟩ := jaynesCummings_master ⟨-10, 2, 0, Complex.I⟩ ⟨10, 1, 0, 0, 2, 0, 3⟩ (1 + Complex.I) .uip .uip (by simp) (by norm_num) (by norm_num) (by norm_num)
    (by norm_num) (by norm_num) rfl rfl (by simp) (by simp)
  ⟨e0, e1, ia, h1, h2, h4, fun i n en => (h5 i n en).2 rfl⟩

end CppQED.Interactions
