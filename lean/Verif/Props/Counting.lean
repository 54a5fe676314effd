import Verif.Lemmas.Counting
import Verif.Props.UnravelCavity
import Verif.Props.ModeNetwork

/-!
# Property C165: the recorded jumps account for the conserved quantities
-/

namespace CppQED.Counting

open CppQED.MCWF CppQED.Spec CppQED.Composite CppQED.PTrace CppQED.Slice CppQED.Interactions CppQED.Elem CppQED.Unravel
open CppQED.MII (Idx)
open Matrix
open scoped ComplexConjugate

/-! ## Elements -/

/-- **C165.** An element whose Hamiltonian connects only basis states with the same quantum number, and whose jumps change it by `D`. -/
theorem element_counts.{v} {e : Element} {w : ℕ → ℂ} {H : Dens} {J : List Dens} (hF : FreeIs e w H J) (hli : e.li.isSome) (hR : RatesAre e J) (c : ℕ → ℤ) (D : List ℤ) (hD : D.length = J.length)
    (hH : ∀ i < e.dim, ∀ j < e.dim, H i j ≠ 0 → c i = c j) (hJ : ∀ k < J.length, ∀ i < e.dim, ∀ j < e.dim, J.getD k 0 i j ≠ 0 → c i = c j + D.getD k 0) :
    Counts.{v} e.toSys e.mcwfRates (fun i => c i) D := by
  obtain ⟨V, hHa, hE, hL, hV⟩ := hF
  refine counts_of _ _ _ _ _ (element_pictured hHa hE hL) _ (hR.of hli) _ _ hD ?_ fun k hk i j hij => hJ k hk i i.2 j j.2 hij
  intro i j hij
  rw [add_zero]
  by_cases h : i = j
  · rw [h]
  refine hH i i.2 j j.2 ?_
  rw [← hV i i.2 j j.2, if_neg fun h' => h (Fin.ext h'), sub_zero]
  exact hij

theorem modeH_diagonal (κ δ : ℝ) {i j : ℕ} (h : modeH κ δ 0 i j ≠ 0) : i = j := by
  by_contra hij
  simp [modeH, nOp, hij] at h

theorem aOp_lowers (z : ℂ) {i j : ℕ} (h : sc z aOp i j ≠ 0) : (i : ℤ) = j + -1 := by
  unfold sc aOp at h
  by_cases hij : j = i + 1
  · rw [hij]; push_cast; ring
  · simp [hij] at h

theorem qbitH_diagonal (γ δ : ℝ) {i j : ℕ} (h : qbitH γ δ 0 i j ≠ 0) : i = j := by
  by_contra hij
  simp only [qbitH, excited, map_zero, zero_mul, sub_zero, add_zero] at h
  rw [if_neg (by rintro ⟨rfl, rfl⟩; exact hij rfl), mul_zero] at h
  exact h rfl

theorem mode_ready (p : ModeEl.Pars) (hd : p.cutoff < 2 ^ 63) (h0 : 0 < p.cutoff) (hκ : 0 < p.kappa) (hn : p.nTh = 0) (hK : p.omegaKerr = 0) (hA : p.omegaKerrAlter = 0) (hη : p.eta = 0) (qmp : ModeEl.Picture) :
    ∃ e, ModeEl.makePumpedLossy p qmp = .ok e ∧ e.dim = p.cutoff ∧ FreeIs e (modePtr p qmp).w (modeH (p.kappa * (2 * 0 + 1)) p.delta 0) [sc (Real.sqrt (2 * p.kappa)) aOp] ∧ e.li.isSome ∧ RatesAre e [sc (Real.sqrt (2 * p.kappa)) aOp] := by
  obtain ⟨e, h1, h2, h3⟩ := mode_free p hd h0 hκ.le hn.symm.le hK hA qmp
  have hJ : modeJ p.kappa 0 = [sc (Real.sqrt (2 * p.kappa)) aOp] := by simp [modeJ, hκ.ne']
  rw [hn, hJ, hη] at h3
  obtain ⟨f1, -⟩ := makePumpedLossy_fields h1
  obtain ⟨_, -, -, hLi, -⟩ := id h3
  unfold LiIs at hLi
  obtain ⟨b, f2⟩ : ∃ b, e.li = some (ModeEl.liouvillean b p) := by
    rcases f1 with f1 | f1
    · rw [f1] at hLi
      cases hLi
    · exact f1
  have hb : b = false := by
    rw [f2] at hLi
    cases b with
    | false => rfl
    | true => simp [ModeEl.liouvillean, ModeEl.liouvilleanFiniteT, elementLiouvillean] at hLi
  subst hb
  obtain ⟨r, r1, r2⟩ := (ModeEl.liouvillean_rates p.kappa 0 hκ.le le_rfl p.cutoff).1
  exact ⟨e, h1, h2, h3, by rw [f2]; rfl, ratesAre_single f2 (by unfold ModeEl.liouvillean; exact r1) (by rw [h2]; exact r2)⟩

/-- **C165.** The lossy mode without pump, at zero temperature: every jump is the loss of a photon. -/
theorem mode_counts.{v} (p : ModeEl.Pars) (hd : p.cutoff < 2 ^ 63) (h0 : 0 < p.cutoff) (hκ : 0 < p.kappa) (hn : p.nTh = 0) (hK : p.omegaKerr = 0) (hA : p.omegaKerrAlter = 0) (hη : p.eta = 0) (qmp : ModeEl.Picture) :
    ∃ e, ModeEl.makePumpedLossy p qmp = .ok e ∧ e.dim = p.cutoff ∧ Counts.{v} e.toSys e.mcwfRates (fun i => (i : ℕ)) [-1] := by
  obtain ⟨e, h1, h2, h3, h4, h5⟩ := mode_ready p hd h0 hκ hn hK hA hη qmp
  refine ⟨e, h1, h2, element_counts h3 h4 h5 (fun i => (i : ℤ)) [-1] rfl ?_ ?_⟩
  · intro i _ j _ h
    rw [modeH_diagonal _ _ h]
  · intro k hk i _ j _ h
    obtain rfl : k = 0 := by simpa using hk
    exact aOp_lowers _ h

/-- **C165.** The lossy qbit without pump. -/
theorem qbit_counts.{v} (p : QbitEl.Pars) (hγ : 0 < p.gamma) (hη : p.eta = 0) (qmp : ModeEl.Picture) :
    ∃ e, QbitEl.make p qmp = .ok e ∧ e.dim = 2 ∧ Counts.{v} e.toSys e.mcwfRates (fun i => (i : ℕ)) [-1] := by
  obtain ⟨e, h1, h2, h3, f2, -, hr⟩ := qbit_ready p hγ qmp
  refine ⟨e, h1, h2, ?_⟩
  rw [hη] at h3
  refine element_counts h3 (by rw [f2]; rfl) hr (fun i => (i : ℤ)) [-1] rfl ?_ ?_
  · intro i _ j _ h
    rw [qbitH_diagonal _ _ h]
  · intro k hk i _ j _ h
    obtain rfl : k = 0 := by simpa using hk
    exact aOp_lowers _ h

/-! ## Composite systems -/

/-- The quantum number of a basis state of a system of `r` subsystems: the sum of those of the subsystems. -/
def totalOf (r : ℕ) (c : ℕ → ℕ → ℤ) (i : Idx) : ℤ := ∑ a ∈ Finset.range r, c a (q i a)

theorem sum_axes (r : ℕ) (axes : List ℕ) (hax : ValidAxes r axes) (f : ℕ → ℤ) : ∑ a ∈ Finset.range r, f a = (axes.map f).sum + ∑ a ∈ (Finset.range r).filter (· ∉ axes), f a := by
  have h1 : (axes.map f).sum = ∑ a ∈ axes.toFinset, f a := by rw [List.sum_toFinset _ hax.2.1]
  have h2 : axes.toFinset = (Finset.range r).filter (· ∈ axes) := by
    ext a
    simp only [List.mem_toFinset, Finset.mem_filter, Finset.mem_range]
    exact ⟨fun h => ⟨hax.2.2 a h, h⟩, fun h => h.2⟩
  rw [h1, h2, Finset.sum_filter_add_sum_filter_not]

theorem shifts_extend {lb ub : Idx} {n : ℕ} (en : Enum lb ub n) (r : ℕ) (axes : List ℕ) (hax : ValidAxes r axes) (c : ℕ → ℕ → ℤ) (A : Idx → Idx → ℂ) (δ : ℤ)
    (h : ∀ x y : Fin n, A (coords axes (en x)) (coords axes (en y)) ≠ 0 → (axes.map fun a => c a (q (en x : Idx) a)).sum = (axes.map fun a => c a (q (en y : Idx) a)).sum + δ) :
    Shifts (fun k => totalOf r c (en k)) δ (boxMat en (extend r axes A)) := by
  intro x y hxy
  simp only [boxMat, Matrix.of_apply, extend] at hxy
  by_cases hag : AgreeOff r axes (en x : Idx) (en y)
  swap
  · rw [if_neg hag] at hxy; exact absurd rfl hxy
  rw [if_pos hag] at hxy
  have := h x y hxy
  simp only [totalOf]
  rw [sum_axes r axes hax, sum_axes r axes hax (fun a => c a (q (en y : Idx) a)), this]
  have : ∑ a ∈ (Finset.range r).filter (· ∉ axes), c a (q (en x : Idx) a) = ∑ a ∈ (Finset.range r).filter (· ∉ axes), c a (q (en y : Idx) a) := by
    refine Finset.sum_congr rfl fun a ha => ?_
    obtain ⟨h1, h2⟩ := Finset.mem_filter.1 ha
    unfold q
    rw [hag a (Finset.mem_range.1 h1) h2]
  rw [this]
  ring

theorem Shifts.add {n : ℕ} {Q : Fin n → ℤ} {δ : ℤ} {A B : Matrix (Fin n) (Fin n) ℂ} (hA : Shifts Q δ A) (hB : Shifts Q δ B) : Shifts Q δ (A + B) := by
  intro i j h
  by_cases ha : A i j = 0
  · refine hB i j fun hb => h ?_
    rw [Matrix.add_apply, ha, hb, add_zero]
  · exact hA i j ha

theorem Shifts.zero {n : ℕ} {Q : Fin n → ℤ} {δ : ℤ} : Shifts Q δ (0 : Matrix (Fin n) (Fin n) ℂ) := fun _ _ h => absurd rfl h

theorem Shifts.listSum {n : ℕ} {Q : Fin n → ℤ} {δ : ℤ} (l : List (Matrix (Fin n) (Fin n) ℂ)) (h : ∀ A ∈ l, Shifts Q δ A) : Shifts Q δ l.sum := by
  induction l with
  | nil => exact Shifts.zero
  | cons A l ih =>
    rw [List.sum_cons]
    exact (h A (by simp)).add (ih fun B hB => h B (by simp [hB]))

theorem Shifts.finsetSum {n : ℕ} {Q : Fin n → ℤ} {δ : ℤ} {α : Type*} (s : Finset α) (f : α → Matrix (Fin n) (Fin n) ℂ) (h : ∀ a ∈ s, Shifts Q δ (f a)) : Shifts Q δ (∑ a ∈ s, f a) := by
  rw [← Finset.sum_map_toList]
  refine Shifts.listSum _ fun A hA => ?_
  obtain ⟨a, ha, rfl⟩ := List.mem_map.1 hA
  exact h a (Finset.mem_toList.1 ha)

theorem Shifts.diagonal {n : ℕ} {Q : Fin n → ℤ} (d : Fin n → ℂ) : Shifts Q 0 (Matrix.diagonal d) := by
  intro i j h
  rw [add_zero]
  by_contra hij
  exact h (Matrix.diagonal_apply_ne _ fun h' => hij (congrArg Q h'))

theorem listSum_apply {n : ℕ} {α : Type*} (l : List α) (f : α → Matrix (Fin n) (Fin n) ℂ) (x y : Fin n) : (l.map f).sum x y = (l.map fun a => f a x y).sum := by
  induction l with
  | nil => rfl
  | cons a l ih => simp only [List.map_cons, List.sum_cons, Matrix.add_apply, ih]

theorem forall₂_flatMap {α β γ : Type*} {R : β → γ → Prop} (l : List α) (f : α → List β) (g : α → List γ) (h : ∀ a ∈ l, List.Forall₂ R (f a) (g a)) : List.Forall₂ R (l.flatMap f) (l.flatMap g) := by
  induction l with
  | nil => exact .nil
  | cons a l ih =>
    rw [List.flatMap_cons, List.flatMap_cons]
    exact List.rel_append (h a (by simp)) (ih fun b hb => h b (by simp [hb]))

/-- What is asked of the subsystem: the Hamiltonian keeps the quantum number `c`, and the jumps change it by `D`. -/
structure FreeCounts (e : Element) (w : ℕ → ℂ) (H : Dens) (J : List Dens) (c : ℕ → ℤ) (D : List ℤ) : Prop where
  pos : 0 < e.dim
  free : FreeIs e w H J
  rates : SliceRates e J
  length : D.length = J.length
  keeps : ∀ i < e.dim, ∀ j < e.dim, H i j ≠ 0 → c i = c j
  changes : ∀ k < J.length, ∀ i < e.dim, ∀ j < e.dim, J.getD k 0 i j ≠ 0 → c i = c j + D.getD k 0

variable {n : ℕ}

theorem composite_shifts (es : List Element) (acts : List Part) (h0 : es ≠ []) (w : ℕ → ℕ → ℂ) (H : ℕ → Dens) (J : ℕ → List Dens) (V : Part → Idx → Idx → ℂ) (c : ℕ → ℕ → ℤ) (D : ℕ → List ℤ)
    (hF : ∀ k e, es[k]? = some e → FreeCounts e (w k) (H k) (J k) (c k) (D k))
    (hI : ∀ ia ∈ acts, ia.li = none ∧ ValidAxes es.length ia.axes ∧ 2 ≤ ia.axes.length ∧ Couples ia (ia.axes.map fun a => (es.map Element.dim).getD a 0) (ia.axes.map w) (V ia) ∧
      ∀ i j, InBox (composite es acts).lb (composite es acts).ub i → InBox (composite es acts).lb (composite es acts).ub j → V ia (coords ia.axes i) (coords ia.axes j) ≠ 0 →
        (ia.axes.map fun a => c a (q i a)).sum = (ia.axes.map fun a => c a (q j a)).sum)
    (hsz : ((List.range es.length).map fun k => (J k).length).sum < 2 ^ 64) (en : Enum (composite es acts).lb (composite es acts).ub n) :
    ∃ W VV JJ, Pictured ((composite es acts).toSys (fun _ => false) en) W VV ((composite es acts).nAvrLA .li) JJ ∧ RatesOf ((composite es acts).nAvrLA .li) JJ ((composite es acts).mcwfRates en) ∧
      ((List.range es.length).flatMap D).length = (composite es acts).nAvrLA .li ∧ Shifts (fun k => totalOf es.length c (en k)) 0 VV ∧
      ∀ m < (composite es acts).nAvrLA .li, Shifts (fun k => totalOf es.length c (en k)) (((List.range es.length).flatMap D).getD m 0) (JJ m) := by
  have hd : ∀ e ∈ es, 0 < e.dim := by
    intro e he
    obtain ⟨k, hk⟩ := List.getElem?_of_mem he
    exact (hF k e hk).pos
  have hb : ValidBounds (composite es acts).lb (composite es acts).ub := validBounds_of es h0 hd
  have hL : ∀ k e, es[k]? = some e → LiIs e (J k) := fun k e h => by obtain ⟨_, -, -, h, -⟩ := (hF k e h).free; exact h
  have hA' : ∀ ia ∈ acts, ia.li = none := fun ia h => (hI ia h).1
  obtain ⟨-, -, -, hok, -⟩ := composite_components es acts h0 hd w H V (fun k e h => ⟨J k, (hF k e h).free⟩) fun ia h => ⟨(hI ia h).2.1, (hI ia h).2.2.1, (hI ia h).2.2.2.1⟩
  have hP := composite_pictured es acts h0 hd w H J V (fun k e h => (hF k e h).free) (fun ia h => ⟨(hI ia h).1, (hI ia h).2.1, (hI ia h).2.2.1, (hI ia h).2.2.2.1⟩) hsz en
  have hR := composite_rates es acts h0 hd J hL (fun k e h => (hF k e h).rates) hA' hok en
  have hbox : ∀ x, InBox (composite es acts).lb (composite es acts).ub (en x) := fun x => enum_box hb.2.1 en x
  have hone : ∀ k < es.length, ValidAxes es.length [k] := fun k hk => ⟨by simp, by simp, by simpa using hk⟩
  have hsh : ∀ k (e : Element), es[k]? = some e → ∀ (A : Dens) (δ : ℤ), (∀ i < e.dim, ∀ j < e.dim, A i j ≠ 0 → c k i = c k j + δ) →
      Shifts (fun k => totalOf es.length c (en k)) δ (boxMat en (extend es.length [k] (single A))) := by
    intro k e hk A δ hA
    refine shifts_extend en es.length [k] (hone k (List.getElem?_eq_some_iff.1 hk).1) c _ δ fun x y hxy => ?_
    have := hA (q (en x : Idx) k) (getD_nonneg es (hbox x) hk).2 (q (en y : Idx) k) (getD_nonneg es (hbox y) hk).2 hxy
    simpa using this
  have hF2 : List.Forall₂ (fun d A => Shifts (fun k => totalOf es.length c (en k)) d A) ((List.range es.length).flatMap D)
      (((composite es acts).jumps fun k j => single ((J k).getD j 0)).map (boxMat en)) := by
    rw [composite_jumps es acts J hL hA' en]
    refine forall₂_flatMap _ _ _ fun k hk => ?_
    have hk' := List.getElem?_eq_getElem (List.mem_range.1 hk)
    have hf := hF k _ hk'
    rw [List.forall₂_iff_get]
    refine ⟨by rw [List.length_map, hf.length], fun m h1 h2 => ?_⟩
    have hm : m < (J k).length := by rw [← hf.length]; exact h1
    have := hsh k _ hk' ((J k).getD m 0) ((D k).getD m 0) (hf.changes m hm)
    simp only [List.get_eq_getElem, List.getElem_map]
    rwa [List.getD_eq_getElem?_getD, List.getD_eq_getElem?_getD, List.getElem?_eq_getElem hm, List.getElem?_eq_getElem h1] at this
  have hlen : ((List.range es.length).flatMap D).length = (composite es acts).nAvrLA .li := by
    rw [hF2.length_eq, List.length_map, jumps_length]
  refine ⟨_, _, _, hP, hR, hlen, ?_, fun m hm => ?_⟩
  · refine Shifts.add ?_ (Shifts.diagonal _)
    have e1 : (boxMat en fun i j => ∑ k ∈ Finset.range es.length, extend es.length [k] (single (H k)) i j + (acts.map fun ia => extend es.length ia.axes (V ia) i j).sum) =
        ∑ k ∈ Finset.range es.length, boxMat en (extend es.length [k] (single (H k))) + (acts.map fun ia => boxMat en (extend es.length ia.axes (V ia))).sum := by
      ext x y
      simp only [boxMat, Matrix.of_apply, Matrix.add_apply, Matrix.sum_apply]
      congr 1
      exact (listSum_apply acts (fun ia => Matrix.of fun i j => extend es.length ia.axes (V ia) (en i) (en j)) x y).symm
    rw [e1]
    refine Shifts.add (Shifts.finsetSum _ _ fun k hk => ?_) (Shifts.listSum _ fun A hA => ?_)
    · have hk' := List.getElem?_eq_getElem (Finset.mem_range.1 hk)
      exact hsh k _ hk' (H k) 0 fun i hi j hj h => by rw [add_zero]; exact (hF k _ hk').keeps i hi j hj h
    · obtain ⟨ia, hia, rfl⟩ := List.mem_map.1 hA
      exact shifts_extend en _ _ (hI ia hia).2.1 c _ 0 fun x y hxy => by rw [add_zero]; exact (hI ia hia).2.2.2.2 _ _ (hbox x) (hbox y) hxy
  · have h1 : m < ((List.range es.length).flatMap D).length := by rw [hlen]; exact hm
    have h2 : m < ((composite es acts).jumps fun k j => single ((J k).getD j 0)).length := by rw [jumps_length]; exact hm
    have := hF2.get h1 (by rw [List.length_map]; exact h2)
    simp only [List.get_eq_getElem, List.getElem_map] at this
    rw [List.getD_eq_getElem?_getD, List.getD_eq_getElem?_getD, List.getElem?_eq_getElem h1, List.getElem?_eq_getElem h2]
    exact this

theorem Counts.of_implemented.{v} {c : Comp} {e : Enum c.lb c.ub n} {rates : ℝ → (Fin n → ℂ) → List ℝ} {Q : Fin n → ℤ} {δ : List ℤ} {b b' : ℕ → Bool} (h : Counts.{v} (c.toSys b e) rates Q δ) : Counts.{v} (c.toSys b' e) rates Q δ := by
  have hm : ∀ {κ : Type v} (make : (ℝ → (Fin n → ℂ) → Fin n → ℂ) → ODE.Stepper (Fin n → ℂ) κ), (c.toSys b e).toMCWF make rates = (c.toSys b' e).toMCWF make rates := by
    intro κ make
    unfold Master.Sys.toMCWF Comp.toSys
    congr 1
    simp only
    split_ifs <;> rfl
  intro κ make
  rw [← hm]
  exact h κ make

theorem Counts.of_implemented_bin.{v} {c : Bin} {e : Enum c.lb c.ub n} {rates : ℝ → (Fin n → ℂ) → List ℝ} {Q : Fin n → ℤ} {δ : List ℤ} {b b' : ℕ → Bool} (h : Counts.{v} (c.toSys b e) rates Q δ) : Counts.{v} (c.toSys b' e) rates Q δ := by
  have hm : ∀ {κ : Type v} (make : (ℝ → (Fin n → ℂ) → Fin n → ℂ) → ODE.Stepper (Fin n → ℂ) κ), (c.toSys b e).toMCWF make rates = (c.toSys b' e).toMCWF make rates := by
    intro κ make
    unfold Master.Sys.toMCWF Bin.toSys
    congr 1
    simp only
    split_ifs <;> rfl
  intro κ make
  rw [← hm]
  exact h κ make

/-- **C165.** A composite system, whose free subsystems and interactions keep the sum of the quantum numbers of the subsystems, up to the changes `D k` in the jumps of the subsystem `k`. -/
theorem composite_counts.{v} (es : List Element) (acts : List Part) (h0 : es ≠ []) (w : ℕ → ℕ → ℂ) (H : ℕ → Dens) (J : ℕ → List Dens) (V : Part → Idx → Idx → ℂ) (c : ℕ → ℕ → ℤ) (D : ℕ → List ℤ)
    (hF : ∀ k e, es[k]? = some e → FreeCounts e (w k) (H k) (J k) (c k) (D k))
    (hI : ∀ ia ∈ acts, ia.li = none ∧ ValidAxes es.length ia.axes ∧ 2 ≤ ia.axes.length ∧ Couples ia (ia.axes.map fun a => (es.map Element.dim).getD a 0) (ia.axes.map w) (V ia) ∧
      ∀ i j, InBox (composite es acts).lb (composite es acts).ub i → InBox (composite es acts).lb (composite es acts).ub j → V ia (coords ia.axes i) (coords ia.axes j) ≠ 0 →
        (ia.axes.map fun a => c a (q i a)).sum = (ia.axes.map fun a => c a (q j a)).sum)
    (hsz : ((List.range es.length).map fun k => (J k).length).sum < 2 ^ 64) (implemented : ℕ → Bool) (en : Enum (composite es acts).lb (composite es acts).ub n) :
    Counts.{v} ((composite es acts).toSys implemented en) ((composite es acts).mcwfRates en) (fun k => ∑ a ∈ Finset.range es.length, c a (q (en k : Idx) a)) ((List.range es.length).flatMap D) := by
  obtain ⟨W, VV, JJ, h1, h2, h3, h4, h5⟩ := composite_shifts es acts h0 w H J V c D hF hI hsz en
  exact Counts.of_implemented (b := fun _ => false) (counts_of _ W VV _ JJ h1 _ h2 _ _ h3 h4 h5)

/-- **C165.** Binary systems. -/
theorem binary_counts.{v} (e0 e1 : Element) (ia : Part) {w0 w1 : ℕ → ℂ} {H0 H1 : Dens} {J0 J1 : List Dens} {H : Idx → Idx → ℂ} {c0 c1 : ℕ → ℤ} {D0 D1 : List ℤ} (h0 : FreeCounts e0 w0 H0 J0 c0 D0) (h1 : FreeCounts e1 w1 H1 J1 c1 D1)
    (hI : Couples ia [e0.dim, e1.dim] [w0, w1] H) (hH : ∀ a b a' b' : ℕ, a < e0.dim → b < e1.dim → a' < e0.dim → b' < e1.dim → H [(a : ℤ), b] [(a' : ℤ), b'] ≠ 0 → c0 a + c1 b = c0 a' + c1 b') (hli : ia.li = none) (hav : ia.av = none)
    (hsz : J0.length + J1.length < 2 ^ 64) (implemented : ℕ → Bool) (en : Enum (binary e0 e1 ia).lb (binary e0 e1 ia).ub n) :
    Counts.{v} ((binary e0 e1 ia).toSys implemented en) ((binary e0 e1 ia).mcwfRates en) (fun k => c0 (q (en k : Idx) 0) + c1 (q (en k : Idx) 1)) (D0 ++ D1) := by
  let es := [e0, e1]
  let acts : List Part := [{ ia with axes := [0, 1] }]
  have hes : es ≠ [] := by simp [es]
  let en' : Enum (composite es acts).lb (composite es acts).ub n := en
  let w : ℕ → ℕ → ℂ := fun k => if k = 0 then w0 else w1
  let HH : ℕ → Dens := fun k => if k = 0 then H0 else H1
  let JJ : ℕ → List Dens := fun k => if k = 0 then J0 else J1
  let cc : ℕ → ℕ → ℤ := fun k => if k = 0 then c0 else c1
  let DD : ℕ → List ℤ := fun k => if k = 0 then D0 else D1
  have hF : ∀ k e, es[k]? = some e → FreeCounts e (w k) (HH k) (JJ k) (cc k) (DD k) := by
    intro k e h
    rcases k with _ | _ | k
    · simp only [es, List.getElem?_cons_zero, Option.some.injEq] at h; subst h; exact h0
    · simp only [es, List.getElem?_cons_succ, List.getElem?_cons_zero, Option.some.injEq] at h; subst h; exact h1
    · simp [es] at h
  have hd : ∀ e ∈ es, 0 < e.dim := by
    intro e he
    obtain ⟨k, hk⟩ := List.getElem?_of_mem he
    exact (hF k e hk).pos
  have hb : ValidBounds (binary e0 e1 ia).lb (binary e0 e1 ia).ub := validBounds_of es hes hd
  have hL : ∀ k e, es[k]? = some e → LiIs e (JJ k) := fun k e h => by obtain ⟨_, -, -, h, -⟩ := (hF k e h).free; exact h
  have hacts : ∀ ia' ∈ acts, ia'.li = none ∧ ValidAxes es.length ia'.axes ∧ 2 ≤ ia'.axes.length ∧ Couples ia' (ia'.axes.map fun a => (es.map Element.dim).getD a 0) (ia'.axes.map w) H ∧
      ∀ i j, InBox (composite es acts).lb (composite es acts).ub i → InBox (composite es acts).lb (composite es acts).ub j → H (coords ia'.axes i) (coords ia'.axes j) ≠ 0 →
        (ia'.axes.map fun a => cc a (q i a)).sum = (ia'.axes.map fun a => cc a (q j a)).sum := by
    intro ia' h
    simp only [acts, List.mem_cons, List.not_mem_nil, or_false] at h
    subst h
    refine ⟨hli, ⟨by simp, by simp, by simp [es]⟩, by simp, hI, fun i j hi hj hne => ?_⟩
    have a0 := getD_nonneg es (i := i) hi (a := 0) (e := e0) rfl
    have a1 := getD_nonneg es (i := i) hi (a := 1) (e := e1) rfl
    have b0 := getD_nonneg es (i := j) hj (a := 0) (e := e0) rfl
    have b1 := getD_nonneg es (i := j) hj (a := 1) (e := e1) rfl
    have key := hH (q i 0) (q i 1) (q j 0) (q j 1) a0.2 a1.2 b0.2 b1.2
    have ei : coords [0, 1] i = [((q i 0 : ℕ) : ℤ), (q i 1 : ℕ)] := by
      simp only [coords, List.map_cons, List.map_nil, q, Int.toNat_of_nonneg a0.1, Int.toNat_of_nonneg a1.1]
    have ej : coords [0, 1] j = [((q j 0 : ℕ) : ℤ), (q j 1 : ℕ)] := by
      simp only [coords, List.map_cons, List.map_nil, q, Int.toNat_of_nonneg b0.1, Int.toNat_of_nonneg b1.1]
    simp only at hne
    rw [ei, ej] at hne
    simpa [cc] using key hne
  obtain ⟨W, VV, JJ', k1, k2, k3, k4, k5⟩ := composite_shifts es acts hes w HH JJ (fun _ => H) cc DD hF hacts (by simpa [es, JJ, List.range_succ] using hsz) en'
  have hIn : InBounds (binary e0 e1 ia).lb (binary e0 e1 ia).ub (binary e0 e1 ia).ia := couples_inBounds hI hli hav
  have n0 : nAvr .li (freePart e0) = J0.length := freePart_nAvr (hL 0 e0 rfl) 0
  have n1 : nAvr .li (freePart e1) = J1.length := freePart_nAvr (hL 1 e1 rfl) 0
  have hsz' : (binary e0 e1 ia).nAvr .li < 2 ^ 64 := by
    simp only [Bin.nAvr, binary, n0, n1]
    simp [nAvr, getLA, hli]
    omega
  obtain ⟨hP', -⟩ := bin_pictured (binary e0 e1 ia) hb rfl hIn (Or.inr (Or.inr hli)) hsz' en k1
  have l0 : LengthOK .li (freePart e0) := (freePart_rates (hL 0 e0 rfl) (hF 0 e0 rfl).rates 0).1
  have l1 : LengthOK .li (freePart e1) := (freePart_rates (hL 1 e1 rfl) (hF 1 e1 rfl).rates 1).1
  have hav' : (binary e0 e1 ia).mcwfRates en = (composite es acts).mcwfRates en' := by
    funext t psi
    exact bin_comp_average (binary e0 e1 ia) hb rfl hIn .li t _ l0 l1 (by intro t m; simp [average, nAvr, getLA, binary, hli])
  have hQ : (fun k => c0 (q (en k : Idx) 0) + c1 (q (en k : Idx) 1)) = fun k => totalOf es.length cc (en' k) := by
    funext k
    change _ = ∑ a ∈ Finset.range 2, cc a (q (en' k : Idx) a)
    rw [Finset.sum_range_succ, Finset.sum_range_one]
    rfl
  have hDD : D0 ++ D1 = (List.range es.length).flatMap DD := by simp [es, DD, List.range_succ]
  rw [hav', hQ, hDD]
  exact Counts.of_implemented_bin (b := fun _ => false) (counts_of _ W VV _ JJ' hP' _ k2 _ _ k3 k4 k5)

/-! ## Systems with losses -/

theorem getD_replicate {k m : ℕ} (hk : k < m) (x : ℤ) : (List.replicate m x).getD k 0 = x := by
  simp [List.getD_eq_getElem?_getD, hk]

theorem length_modeJ (κ n : ℝ) : (modeJ κ n).length ≤ 2 := by unfold modeJ; split_ifs <;> simp

theorem modeJ_lowers (κ : ℝ) {k : ℕ} (hk : k < (modeJ κ 0).length) {i j : ℕ} (h : (modeJ κ 0).getD k 0 i j ≠ 0) : (i : ℤ) = j + -1 := by
  unfold modeJ at hk h
  by_cases hκ : κ = 0
  · simp [hκ] at hk
  · simp only [hκ, if_false, if_true] at hk h
    obtain rfl : k = 0 := by simpa using hk
    exact aOp_lowers _ h

theorem mode_freeCounts (p : ModeEl.Pars) (hd : p.cutoff < 2 ^ 63) (h0 : 0 < p.cutoff) (hκ : 0 ≤ p.kappa) (hn : p.nTh = 0) (hK : p.omegaKerr = 0) (hA : p.omegaKerrAlter = 0) (hη : p.eta = 0) (qmp : ModeEl.Picture) :
    ∃ e, ModeEl.makePumpedLossy p qmp = .ok e ∧ e.dim = p.cutoff ∧
      FreeCounts e (modePtr p qmp).w (modeH p.kappa p.delta p.eta) (modeJ p.kappa 0) (fun i => (i : ℤ)) (List.replicate (modeJ p.kappa 0).length (-1)) := by
  obtain ⟨e, h1, h2, h3, -⟩ := mode_trajectoryFree p hd h0 hκ hn hK hA qmp
  refine ⟨e, h1, h2, h3.pos, h3.free, h3.rates, List.length_replicate, ?_, ?_⟩
  · intro i _ j _ h
    rw [hη] at h
    rw [modeH_diagonal _ _ h]
  · intro k hk i _ j _ h
    rw [getD_replicate hk]
    exact modeJ_lowers _ hk h

theorem qbit_freeCounts (p : QbitEl.Pars) (hγ : 0 ≤ p.gamma) (hη : p.eta = 0) (qmp : ModeEl.Picture) : ∃ e, QbitEl.make p qmp = .ok e ∧ e.dim = 2 ∧
    FreeCounts e (qbitPtr p qmp).w (qbitH p.gamma p.delta p.eta) (modeJ p.gamma 0) (fun i => (i : ℤ)) (List.replicate (modeJ p.gamma 0).length (-1)) := by
  obtain ⟨e, h1, h2, h3, -⟩ := qbit_trajectoryFree p hγ qmp
  refine ⟨e, h1, h2, h3.pos, h3.free, h3.rates, List.length_replicate, ?_, ?_⟩
  · intro i _ j _ h
    rw [hη] at h
    rw [qbitH_diagonal _ _ h]
  · intro k hk i _ j _ h
    rw [getD_replicate hk]
    exact modeJ_lowers _ hk h

theorem qbitPhaseNoise_freeCounts (p : QbitEl.Pars) (hγ : 0 ≤ p.gamma) (hp : 0 < p.gammaParallel) (hη : p.eta = 0) (qmp : ModeEl.Picture) : ∃ e, QbitEl.makePhaseNoise p qmp = .ok e ∧ e.dim = 2 ∧
    FreeCounts e (qbitPtrPhaseNoise p qmp).w (qbitH p.gamma p.delta p.eta) [sc (Real.sqrt (2 * p.gamma)) sigma, sc (Real.sqrt (2 * p.gammaParallel)) sigmaZ] (fun i => (i : ℤ)) [-1, 0] := by
  obtain ⟨e, h1, h2, h3, -⟩ := qbitPhaseNoise_trajectoryFree p hγ hp qmp
  refine ⟨e, h1, h2, h3.pos, h3.free, h3.rates, rfl, ?_, ?_⟩
  · intro i _ j _ h
    rw [hη] at h
    rw [qbitH_diagonal _ _ h]
  · intro k hk i _ j _ h
    have : k < 2 := by simpa using hk
    interval_cases k
    · simp only [List.getD_cons_zero, sc, sigma] at h ⊢
      by_cases hij : i = 0 ∧ j = 1
      · rw [hij.1, hij.2]; rfl
      · rw [if_neg hij, mul_zero] at h; exact absurd rfl h
    · simp only [List.getD_cons_zero, List.getD_cons_succ, sc, sigmaZ] at h ⊢
      by_cases hij : i = j
      · rw [hij, add_zero]
      · rw [if_neg hij, mul_zero] at h; exact absurd rfl h

theorem jcH_keeps (g : ℂ) (a b a' b' : ℕ) (h : jcH g sigma sigmaDag [(a : ℤ), b] [(a' : ℤ), b'] ≠ 0) : (a : ℤ) + b = a' + b' := by
  simp only [jcH, tensor, q, List.getD_cons_zero, List.getD_cons_succ, Int.toNat_natCast, sigma, sigmaDag, aOp, adOp] at h
  by_contra hne
  apply h
  have h1 : (if a = 0 ∧ a' = 1 then (1 : ℂ) else 0) * (if b = b' + 1 then (Real.sqrt b : ℂ) else 0) = 0 := by
    split_ifs with h1 h2
    · omega
    all_goals simp
  have h2 : (if a = 1 ∧ a' = 0 then (1 : ℂ) else 0) * (if b' = b + 1 then (Real.sqrt b' : ℂ) else 0) = 0 := by
    split_ifs with h1 h2
    · omega
    all_goals simp
  rw [h1, h2]
  simp

/-- **C165.** The Jaynes-Cummings system without pumps, the mode at zero temperature: the number of excitations plus the number of jumps is constant in every trajectory. -/
theorem jaynesCummings_counts.{v} (pq : QbitEl.Pars) (pm : ModeEl.Pars) (g : ℂ) (qmq qmm : ModeEl.Picture) (hq : qmq = .sch ↔ qmm = .sch) (hγ : 0 ≤ pq.gamma) (hηq : pq.eta = 0)
    (hd : pm.cutoff < 2 ^ 63) (h0 : 0 < pm.cutoff) (hκ : 0 ≤ pm.kappa) (hn : pm.nTh = 0) (hK : pm.omegaKerr = 0) (hA : pm.omegaKerrAlter = 0) (hηm : pm.eta = 0) :
    ∃ e0 e1 ia, QbitEl.make pq qmq = .ok e0 ∧ ModeEl.makePumpedLossy pm qmm = .ok e1 ∧ jaynesCummings [0, 1] (aop (qbitPtr pq qmq)) (modePtr pm qmm) g = .ok ia ∧
      ∀ (implemented : ℕ → Bool) (n : ℕ) (en : Enum (binary e0 e1 ia).lb (binary e0 e1 ia).ub n),
        Counts.{v} ((binary e0 e1 ia).toSys implemented en) ((binary e0 e1 ia).mcwfRates en) (fun k => (q (en k : Idx) 0 : ℤ) + q (en k : Idx) 1)
          (List.replicate ((modeJ pq.gamma 0).length + (modeJ pm.kappa 0).length) (-1)) := by
  obtain ⟨e0, a1, a2, a3⟩ := qbit_freeCounts pq hγ hηq qmq
  obtain ⟨e1, b1, b2, b3⟩ := mode_freeCounts pm hd h0 hκ hn hK hA hηm qmm
  obtain ⟨S, s1, s2, s3⟩ := aop_qbit pq qmq
  obtain ⟨ia, i1, -, i3⟩ := jaynesCummings_couples (modePtr pm qmm) (by rw [modePtr_dim]; exact hd) (by rw [modePtr_dim]; exact h0) s2
    (by rw [modePtr_exact, ← show decide (qmq ≠ .sch) = decide (qmm ≠ .sch) by simp only [ne_eq, hq], ← qbitPtr_exact pq]; exact s3) [0, 1] g
  have hs : (fun i j => conj (sigma j i)) = sigmaDag := by
    funext i j; simp only [sigma, sigmaDag]; split_ifs <;> simp_all
  rw [hs, modePtr_dim] at i3
  obtain ⟨l1, l2, -, -⟩ := jaynesCummings_fields i1
  rw [s1]
  refine ⟨e0, e1, ia, a1, b1, i1, fun implemented n en => ?_⟩
  have := binary_counts.{v} e0 e1 ia a3 b3 (by rw [a2, b2]; exact i3) (fun a b a' b' _ _ _ _ h => jcH_keeps g a b a' b' h) l1 l2
    (by have := length_modeJ pq.gamma 0; have := length_modeJ pm.kappa 0; omega) implemented en
  rwa [← List.replicate_add] at this

/-- **C165.** The same with a qbit with phase noise: the jumps of phase noise (number 1) do not count. -/
theorem jaynesCummings_phaseNoise_counts.{v} (pq : QbitEl.Pars) (pm : ModeEl.Pars) (g : ℂ) (qmq qmm : ModeEl.Picture) (hq : phaseNoisePicture pq qmq = .sch ↔ qmm = .sch) (hγ : 0 ≤ pq.gamma) (hp : 0 < pq.gammaParallel) (hηq : pq.eta = 0)
    (hd : pm.cutoff < 2 ^ 63) (h0 : 0 < pm.cutoff) (hκ : 0 ≤ pm.kappa) (hn : pm.nTh = 0) (hK : pm.omegaKerr = 0) (hA : pm.omegaKerrAlter = 0) (hηm : pm.eta = 0) :
    ∃ e0 e1 ia, QbitEl.makePhaseNoise pq qmq = .ok e0 ∧ ModeEl.makePumpedLossy pm qmm = .ok e1 ∧ jaynesCummings [0, 1] (aop (qbitPtrPhaseNoise pq qmq)) (modePtr pm qmm) g = .ok ia ∧
      ∀ (implemented : ℕ → Bool) (n : ℕ) (en : Enum (binary e0 e1 ia).lb (binary e0 e1 ia).ub n),
        Counts.{v} ((binary e0 e1 ia).toSys implemented en) ((binary e0 e1 ia).mcwfRates en) (fun k => (q (en k : Idx) 0 : ℤ) + q (en k : Idx) 1)
          ([-1, 0] ++ List.replicate (modeJ pm.kappa 0).length (-1)) := by
  obtain ⟨e0, a1, a2, a3⟩ := qbitPhaseNoise_freeCounts pq hγ hp hηq qmq
  obtain ⟨e1, b1, b2, b3⟩ := mode_freeCounts pm hd h0 hκ hn hK hA hηm qmm
  rw [qbitPtrPhaseNoise_eq] at a3 ⊢
  obtain ⟨S, s1, s2, s3⟩ := aop_qbit pq (phaseNoisePicture pq qmq)
  obtain ⟨ia, i1, -, i3⟩ := jaynesCummings_couples (modePtr pm qmm) (by rw [modePtr_dim]; exact hd) (by rw [modePtr_dim]; exact h0) s2
    (by rw [modePtr_exact, ← show decide (phaseNoisePicture pq qmq ≠ .sch) = decide (qmm ≠ .sch) by simp only [ne_eq, hq], ← qbitPtr_exact pq]; exact s3) [0, 1] g
  have hs : (fun i j => conj (sigma j i)) = sigmaDag := by
    funext i j; simp only [sigma, sigmaDag]; split_ifs <;> simp_all
  rw [hs, modePtr_dim] at i3
  obtain ⟨l1, l2, -, -⟩ := jaynesCummings_fields i1
  rw [s1]
  refine ⟨e0, e1, ia, a1, b1, i1, fun implemented n en => ?_⟩
  exact binary_counts.{v} e0 e1 ia a3 b3 (by rw [a2, b2]; exact i3) (fun a b a' b' _ _ _ _ h => jcH_keeps g a b a' b' h) l1 l2
    (by have := length_modeJ pm.kappa 0; simp only [List.length_cons, List.length_nil]; omega) implemented en

theorem xxRwaH_keeps (u : ℂ) (a b a' b' : ℕ) (h : xxRwaH u [(a : ℤ), b] [(a' : ℤ), b'] ≠ 0) : (a : ℤ) + b = a' + b' := by
  simp only [xxRwaH, tensor, q, List.getD_cons_zero, List.getD_cons_succ, Int.toNat_natCast, aOp, adOp] at h
  by_contra hne
  apply h
  have h1 : (if a' = a + 1 then (Real.sqrt a' : ℂ) else 0) * (if b = b' + 1 then (Real.sqrt b : ℂ) else 0) = 0 := by
    split_ifs with h1 h2
    · omega
    all_goals simp
  have h2 : (if a = a' + 1 then (Real.sqrt a : ℂ) else 0) * (if b' = b + 1 then (Real.sqrt b' : ℂ) else 0) = 0 := by
    split_ifs with h1 h2
    · omega
    all_goals simp
  rw [h1, h2]
  simp

/-- **C165.** Two modes coupled in rotating-wave approximation, without pumps, at zero temperature. -/
theorem coupledModes_counts.{v} (p1 p2 : ModeEl.Pars) (u : ℂ) (qm1 qm2 : ModeEl.Picture) (hq : (modePtr p1 qm1).exact.isSome = (modePtr p2 qm2).exact.isSome) (hd1 : p1.cutoff < 2 ^ 63) (h1 : 0 < p1.cutoff) (hκ1 : 0 ≤ p1.kappa) (hn1 : p1.nTh = 0)
    (hK1 : p1.omegaKerr = 0) (hA1 : p1.omegaKerrAlter = 0) (hη1 : p1.eta = 0) (hd2 : p2.cutoff < 2 ^ 63) (h2 : 0 < p2.cutoff) (hκ2 : 0 ≤ p2.kappa) (hn2 : p2.nTh = 0) (hK2 : p2.omegaKerr = 0) (hA2 : p2.omegaKerrAlter = 0) (hη2 : p2.eta = 0) :
    ∃ e0 e1 ia, ModeEl.makePumpedLossy p1 qm1 = .ok e0 ∧ ModeEl.makePumpedLossy p2 qm2 = .ok e1 ∧ coupledModes [0, 1] .xxRWA (modePtr p1 qm1) (modePtr p2 qm2) u = .ok ia ∧
      ∀ (implemented : ℕ → Bool) (n : ℕ) (en : Enum (binary e0 e1 ia).lb (binary e0 e1 ia).ub n),
        Counts.{v} ((binary e0 e1 ia).toSys implemented en) ((binary e0 e1 ia).mcwfRates en) (fun k => (q (en k : Idx) 0 : ℤ) + q (en k : Idx) 1)
          (List.replicate ((modeJ p1.kappa 0).length + (modeJ p2.kappa 0).length) (-1)) := by
  obtain ⟨e0, a1, a2, a3⟩ := mode_freeCounts p1 hd1 h1 hκ1 hn1 hK1 hA1 hη1 qm1
  obtain ⟨e1, b1, b2, b3⟩ := mode_freeCounts p2 hd2 h2 hκ2 hn2 hK2 hA2 hη2 qm2
  obtain ⟨ia, i1, -, i3⟩ := coupledModes_couples .xxRWA (modePtr p1 qm1) (modePtr p2 qm2) u (by rw [modePtr_dim]; exact hd1) (by rw [modePtr_dim]; exact h1) (by rw [modePtr_dim]; exact hd2) (by rw [modePtr_dim]; exact h2)
    hq [0, 1]
  rw [modePtr_dim, modePtr_dim] at i3
  obtain ⟨l1, l2, -⟩ := coupledModes_fields i1
  refine ⟨e0, e1, ia, a1, b1, i1, fun implemented n en => ?_⟩
  have := binary_counts.{v} e0 e1 ia a3 b3 (by rw [a2, b2]; exact i3) (fun a b a' b' _ _ _ _ h => xxRwaH_keeps u a b a' b' h) l1 l2
    (by have := length_modeJ p1.kappa 0; have := length_modeJ p2.kappa 0; omega) implemented en
  rwa [← List.replicate_add] at this

/-- **C165.** Any number of qbits in a cavity, without pumps, the mode at zero temperature. -/
theorem qbitsInCavity_counts.{v} (N : ℕ) (hN : N < 2 ^ 62) (pq : ℕ → QbitEl.Pars) (pm : ModeEl.Pars) (g : ℕ → ℂ) (qmq : ℕ → ModeEl.Picture) (qmm : ModeEl.Picture) (hq : ∀ k, qmq k = .sch ↔ qmm = .sch)
    (hγ : ∀ k, 0 ≤ (pq k).gamma) (hηq : ∀ k, (pq k).eta = 0) (hd : pm.cutoff < 2 ^ 63) (h0 : 0 < pm.cutoff) (hκ : 0 ≤ pm.kappa) (hn : pm.nTh = 0) (hK : pm.omegaKerr = 0) (hA : pm.omegaKerrAlter = 0) (hηm : pm.eta = 0) :
    ∃ (em : Element) (eq : ℕ → Element) (ia : ℕ → Part), ModeEl.makePumpedLossy pm qmm = .ok em ∧ (∀ k, QbitEl.make (pq k) (qmq k) = .ok (eq k)) ∧
      (∀ k, jaynesCummings [k + 1, 0] (aop (qbitPtr (pq k) (qmq k))) (modePtr pm qmm) (g k) = .ok (ia k)) ∧
      ∀ (c : Comp), c = composite (em :: (List.range N).map eq) ((List.range N).map ia) → ∀ (implemented : ℕ → Bool) (n : ℕ) (en : Enum c.lb c.ub n),
        Counts.{v} (c.toSys implemented en) (c.mcwfRates en) (fun k => ∑ a ∈ Finset.range (N + 1), (q (en k : Idx) a : ℤ))
          (List.replicate ((modeJ pm.kappa 0).length + ∑ k ∈ Finset.range N, (modeJ (pq k).gamma 0).length) (-1)) := by
  obtain ⟨em, b1, b2, b3⟩ := mode_freeCounts pm hd h0 hκ hn hK hA hηm qmm
  choose eq a1 a2 a3 using fun k => qbit_freeCounts (pq k) (hγ k) (hηq k) (qmq k)
  have hs : (fun i j => conj (sigma j i)) = sigmaDag := by
    funext i j; simp only [sigma, sigmaDag]; split_ifs <;> simp_all
  have hia : ∀ k, ∃ ia, jaynesCummings [k + 1, 0] (aop (qbitPtr (pq k) (qmq k))) (modePtr pm qmm) (g k) = .ok ia ∧ ia.axes = [k + 1, 0] ∧
      Couples ia [2, pm.cutoff] [(qbitPtr (pq k) (qmq k)).w, (modePtr pm qmm).w] (jcH (g k) sigma sigmaDag) := by
    intro k
    obtain ⟨S, s1, s2, s3⟩ := aop_qbit (pq k) (qmq k)
    obtain ⟨ia, i1, i2, i3⟩ := jaynesCummings_couples (modePtr pm qmm) (by rw [modePtr_dim]; exact hd) (by rw [modePtr_dim]; exact h0) s2
      (by rw [modePtr_exact, ← show decide (qmq k ≠ .sch) = decide (qmm ≠ .sch) by simp only [ne_eq, hq k], ← qbitPtr_exact (pq k)]; exact s3) [k + 1, 0] (g k)
    rw [hs, modePtr_dim] at i3
    exact ⟨ia, by rw [s1]; exact i1, i2, i3⟩
  choose ia i1 i2 i3 using hia
  refine ⟨em, eq, ia, b1, a1, i1, ?_⟩
  rintro c rfl implemented n en
  let w : ℕ → ℕ → ℂ := fun k => k.casesOn (modePtr pm qmm).w fun k => (qbitPtr (pq k) (qmq k)).w
  let H : ℕ → Dens := fun k => k.casesOn (modeH pm.kappa pm.delta pm.eta) fun k => qbitH (pq k).gamma (pq k).delta (pq k).eta
  let J : ℕ → List Dens := fun k => k.casesOn (modeJ pm.kappa 0) fun k => modeJ (pq k).gamma 0
  let V : Part → Idx → Idx → ℂ := fun p => jcH (g (p.axes.headD 0 - 1)) sigma sigmaDag
  have hl : (em :: (List.range N).map eq).length = N + 1 := by simp
  have hget : ∀ k < N, (em :: (List.range N).map eq)[k + 1]? = some (eq k) := by
    intro k hk
    simp [hk]
  have hJl : ∀ k, (J k).length ≤ 2 := by rintro (_ | k) <;> exact length_modeJ _ _
  have := composite_counts.{v} (em :: (List.range N).map eq) ((List.range N).map ia) (by simp) w H J V (fun _ i => (i : ℤ)) (fun k => List.replicate (J k).length (-1)) ?_ ?_ ?_ implemented en
  · rw [hl] at this
    have hrep : (List.range (N + 1)).flatMap (fun k => List.replicate (J k).length (-1 : ℤ)) = List.replicate ((modeJ pm.kappa 0).length + ∑ k ∈ Finset.range N, (modeJ (pq k).gamma 0).length) (-1) := by
      have e0 : ∀ (f : ℕ → ℕ) (m : ℕ), (List.range m).flatMap (fun k => List.replicate (f k) (-1 : ℤ)) = List.replicate (∑ k ∈ Finset.range m, f k) (-1) := by
        intro f m
        induction m with
        | zero => rfl
        | succ m ih => rw [List.range_succ, List.flatMap_append, ih, Finset.sum_range_succ, List.replicate_add]; simp
      rw [e0 (fun k => (J k).length), Finset.sum_range_succ', add_comm]
      rfl
    rwa [hrep] at this
  · rintro (_ | k) e h
    · simp only [List.getElem?_cons_zero, Option.some.injEq] at h
      subst h
      exact b3
    · simp only [List.getElem?_cons_succ, List.getElem?_map] at h
      obtain ⟨k', hk', rfl⟩ := Option.map_eq_some_iff.1 h
      obtain ⟨-, rfl⟩ := List.getElem?_eq_some_iff.1 hk'
      simp only [List.getElem_range]
      exact a3 k
  · intro p hp
    obtain ⟨k, hk, rfl⟩ := List.mem_map.1 hp
    have hk := List.mem_range.1 hk
    have hV : V (ia k) = jcH (g k) sigma sigmaDag := by simp only [V, i2, List.headD_cons, Nat.add_sub_cancel]
    refine ⟨(jaynesCummings_fields (i1 k)).1, ?_, by rw [i2]; simp, ?_, ?_⟩
    · rw [i2, hl]
      refine ⟨by simp, by simp, ?_⟩
      simp only [List.mem_cons, List.not_mem_nil, or_false]
      omega
    · have e : ([k + 1, 0].map fun a => ((em :: (List.range N).map eq).map Element.dim).getD a 0) = [2, em.dim] := by
        simp [hk, a2]
      rw [i2, e, hV]
      have := i3 k
      rw [← b2] at this
      exact this
    · intro i j hi hj hne
      rw [hV, i2] at hne
      rw [i2]
      have x0 := (getD_nonneg _ (i := i) hi (hget k hk)).1
      have x1 := (getD_nonneg _ (i := i) hi (a := 0) (e := em) rfl).1
      have y0 := (getD_nonneg _ (i := j) hj (hget k hk)).1
      have y1 := (getD_nonneg _ (i := j) hj (a := 0) (e := em) rfl).1
      have ei : coords [k + 1, 0] i = [((q i (k + 1) : ℕ) : ℤ), (q i 0 : ℕ)] := by
        simp only [coords, List.map_cons, List.map_nil, q, Int.toNat_of_nonneg x0, Int.toNat_of_nonneg x1]
      have ej : coords [k + 1, 0] j = [((q j (k + 1) : ℕ) : ℤ), (q j 0 : ℕ)] := by
        simp only [coords, List.map_cons, List.map_nil, q, Int.toNat_of_nonneg y0, Int.toNat_of_nonneg y1]
      rw [ei, ej] at hne
      simpa using jcH_keeps _ _ _ _ _ hne
  · rw [hl]
    have : ∀ m, ((List.range m).map fun k => (J k).length).sum ≤ 2 * m := by
      intro m
      induction m with
      | zero => simp
      | succ m ih =>
        rw [List.range_succ, List.map_append, List.sum_append]
        have := hJl m
        simp only [List.map_cons, List.map_nil, List.sum_cons, List.sum_nil, add_zero]
        omega
    have := this (N + 1)
    omega

/-! ## What one sees in the record -/

theorem balance_replicate (m : ℕ) (traj : List (ℝ × ℕ)) (h : ∀ e ∈ traj, e.2 < m) : balance (List.replicate m (-1)) traj = -(traj.length : ℤ) := by
  unfold balance
  induction traj with
  | nil => rfl
  | cons e l ih =>
    rw [List.map_cons, List.sum_cons, ih fun e' he => h e' (by simp [he]), getD_replicate (h e (by simp))]
    simp only [List.length_cons]
    push_cast
    ring

/-- **C165.** If all the jumps are losses: a trajectory that starts with at most `q0` quanta has at most `q0` jumps, whatever the random numbers; and if it starts with exactly `q0` quanta, then at the end there are exactly as many less as there are
jumps in the record. -/
theorem losses_counted.{v} {S : Master.Sys n} {rates : ℝ → (Fin n → ℂ) → List ℝ} {Q : Fin n → ℤ} {m : ℕ} (hS : Counts.{v} S rates Q (List.replicate m (-1))) (hQ : ∀ i, 0 ≤ Q i) {κ : Type v} (make : (ℝ → (Fin n → ℂ) → Fin n → ℂ) → ODE.Stepper (Fin n → ℂ) κ)
    (hst : ∀ t0, ODE.Controlled (make (S.rhs t0)) ∧ (∀ k s t d, s ≠ 0 → (make (S.rhs t0) k s t d).1.success = true → (make (S.rhs t0) k s t d).1.state ≠ 0) ∧ KeepsSupport (S.rhs t0) (make (S.rhs t0)))
    (L : Lim) (hL : 0 < L.dpLimit) (hT : 1 ≤ L.overshootTolerance) (sample : ℕ → ℝ) (hs : ∀ k, 0 ≤ sample k) (fuel N : ℕ) (Dts : List ℝ) (hD : ∀ Dt ∈ Dts, 0 < Dt) (psi : Fin n → ℂ) (hpsi : MCWF.norm psi = 1) (ces : κ) (dtInit : ℝ) (hdt : 0 < dtInit)
    (level : ℤ) (nL : ℕ) (z : St (Fin n) κ) (g : MCWFLog.Logged)
    (h : MCWFLog.steps (S.toMCWF make rates) L sample fuel N Dts (MCWFLog.construct (S.toMCWF make rates) L psi ces dtInit level nL).1 (MCWFLog.construct (S.toMCWF make rates) L psi ces dtInit level nL).2 = some (z, g)) (q0 : ℕ) :
    ((∀ j, psi j ≠ 0 → Q j ≤ q0) → g.log.traj.length ≤ q0) ∧ ((∀ j, psi j ≠ 0 → Q j = q0) → ∀ i, z.psi i ≠ 0 → Q i + g.log.traj.length = q0) := by
  obtain ⟨h1, h2, h3⟩ := hS κ make hst L hL hT sample hs fuel N Dts hD psi hpsi ces dtInit hdt level nL z g h
  rw [balance_replicate m _ (by simpa using h2)] at h3
  constructor
  · intro hj
    obtain ⟨i, hi⟩ := Function.ne_iff.1 (ne_zero_of_norm _ h1)
    obtain ⟨j, hj', hij⟩ := h3 i hi
    have := hj j hj'
    have := hQ i
    omega
  · intro hj i hi
    obtain ⟨j, hj', hij⟩ := h3 i hi
    rw [hij, hj j hj']
    ring

/-! ## Steppers as supposed, and a run -/

open Classical in
/-- The step of Euler, except that a state is not replaced by zero. -/
noncomputable def euler {ι : Type*} (rhs : ℝ → (ι → ℂ) → ι → ℂ) : ODE.Stepper (ι → ℂ) Unit := fun k s t d =>
  (⟨true, if (fun i => s i + d * rhs t s i) = 0 then s else fun i => s i + d * rhs t s i, t + d, d⟩, k)

theorem euler_ok {ι : Type*} (rhs : ℝ → (ι → ℂ) → ι → ℂ) : ODE.Controlled (euler rhs) ∧ (∀ k s t d, s ≠ 0 → (euler rhs k s t d).1.success = true → (euler rhs k s t d).1.state ≠ 0) ∧ KeepsSupport rhs (euler rhs) := by
  refine ⟨?_, ?_, ?_⟩
  · constructor <;> simp +contextual [euler]
  · intro k s t d hs _
    simp only [euler]
    split_ifs with h
    · exact hs
    · exact h
  · intro B hB k s t d hs i hi
    simp only [euler]
    split_ifs with h
    · exact hs i hi
    · simp [hs i hi, hB t s hs i hi]

/-- With this stepper, the first step of a trajectory comes to an end. -/
theorem euler_runs (S : Master.Sys n) (W : Fin n → ℂ) (V : Matrix (Fin n) (Fin n) ℂ) (nJ : ℕ) (J : ℕ → Matrix (Fin n) (Fin n) ℂ) (hP : Pictured S W V nJ J) (rates : ℝ → (Fin n → ℂ) → List ℝ) (hR : RatesOf nJ J rates) (hli : S.li.isSome) (L : Lim)
    (hL : 0 < L.dpLimit) (hT : 1 < L.overshootTolerance) (sample : ℕ → ℝ) (Dt : ℝ) (hDt : 0 < Dt) (psi : Fin n → ℂ) (hpsi : MCWF.norm psi = 1) (dtInit : ℝ) (hdt : 0 < dtInit) (level : ℤ) (nL : ℕ) :
    ∃ N z g, MCWFLog.steps (S.toMCWF euler rates) L sample 1 N [Dt] (MCWFLog.construct (S.toMCWF euler rates) L psi () dtInit level nL).1 (MCWFLog.construct (S.toMCWF euler rates) L psi () dtInit level nL).2 = some (z, g) := by
  obtain ⟨G, U, lin, hU, hG⟩ := hP
  obtain ⟨Γ, hΓ0, hΓ⟩ := total_bound nJ J
  obtain ⟨l, hl⟩ : ∃ l, (S.toMCWF euler rates).li = some l := by
    obtain ⟨l, hl⟩ := Option.isSome_iff_exists.1 hli
    exact ⟨⟨rates, l.actWithJ⟩, by simp [Master.Sys.toMCWF, hl]⟩
  obtain ⟨q1, q2, q3⟩ := toMCWF_consistent S G U nJ J lin euler rates hR l hl
  have hwell := toMCWF_wellBehaved S G U nJ J lin W hU euler rates hR fun _ t0 => ⟨(euler_ok _).1, (euler_ok _).2.1⟩
  have hev : ∀ x : St (Fin n) Unit, x.psi ≠ 0 → 0 < x.dtTry → ((S.toMCWF euler rates).ha.isSome → x.dtTry ≠ ⊤) → (coherent (S.toMCWF euler rates) 1 Dt x).isSome := by
    intro x _ _ hf
    unfold coherent evolve
    cases hha : (S.toMCWF euler rates).ha with
    | none => simp
    | some ha =>
      simp only [Master.Sys.toMCWF] at hha
      obtain ⟨f, hf', rfl⟩ := Option.map_eq_some_iff.1 hha
      cases hd : x.dtTry with
      | top => exact absurd hd (hf (by simp [Master.Sys.toMCWF, hf']))
      | coe d => simp [ODE.step, ODE.tryLoop, euler]
  have hinv := (construct_inv (S.toMCWF euler rates) L hL hT.le psi hpsi () dtInit hdt).1
  obtain ⟨N, hN⟩ := step_terminates _ hwell l hl L hL hT Γ (hΓ l q1 (by rw [q2]; exact hR) q3) 1 Dt hDt hev sample _ hinv
  have h1 := hN N le_rfl
  rw [← MCWFLog.step_eq _ L sample 1 N Dt _ (MCWFLog.construct (S.toMCWF euler rates) L psi () dtInit level nL).2, Option.isSome_map] at h1
  obtain ⟨⟨z, g⟩, hz⟩ := Option.isSome_iff_exists.1 h1
  refine ⟨N, z, g, ?_⟩
  rw [MCWFLog.construct_eq]
  unfold MCWFLog.steps
  rw [hz]
  rfl

/-- A lossy mode with up to four photons, in the Schrödinger picture, starting with two photons: a step comes to an end, and it has one jump at the most; afterwards there are as many less photons as there are jumps. -/
example (Dt : ℝ) (hDt : 0 < Dt) (sample : ℕ → ℝ) (hs : ∀ k, 0 ≤ sample k) : ∃ e, ModeEl.makePumpedLossy ⟨5, 3, 0, 0, 2, 0, 0⟩ .sch = .ok e ∧ ∃ h : 2 < e.dim, ∃ N z g,
    MCWFLog.steps (e.toSys.toMCWF euler e.mcwfRates) ⟨1 / 100, 10⟩ sample 1 N [Dt] (MCWFLog.construct (e.toSys.toMCWF euler e.mcwfRates) ⟨1 / 100, 10⟩ (Pi.single ⟨2, h⟩ 1) () 1 0 1).1
      (MCWFLog.construct (e.toSys.toMCWF euler e.mcwfRates) ⟨1 / 100, 10⟩ (Pi.single ⟨2, h⟩ 1) () 1 0 1).2 = some (z, g) ∧
    g.log.traj.length ≤ 2 ∧ ∀ i, z.psi i ≠ 0 → ((i : ℕ) : ℤ) + g.log.traj.length = 2 := by
  obtain ⟨e, h1, h2, ⟨V, hH, hE, hL, hV⟩, h4, h5⟩ := mode_ready ⟨5, 3, 0, 0, 2, 0, 0⟩ (by norm_num) (by norm_num) (by norm_num) rfl rfl rfl rfl .sch
  obtain ⟨e', h1', -, hc⟩ := mode_counts.{0} ⟨5, 3, 0, 0, 2, 0, 0⟩ (by norm_num) (by norm_num) (by norm_num) rfl rfl rfl rfl .sch
  obtain rfl : e = e' := by rw [h1] at h1'; injection h1'
  have hdim : 2 < e.dim := by rw [h2]; norm_num
  refine ⟨e, h1, hdim, ?_⟩
  have hn : MCWF.norm (Pi.single (⟨2, hdim⟩ : Fin e.dim) (1 : ℂ)) = 1 := by
    unfold MCWF.norm
    rw [Finset.sum_eq_single (⟨2, hdim⟩ : Fin e.dim)]
    · simp
    · intro b _ hb; simp [hb]
    · intro h; exact absurd (Finset.mem_univ _) h
  obtain ⟨N, z, g, hz⟩ := euler_runs e.toSys _ _ _ _ (element_pictured hH hE hL) e.mcwfRates (h5.of h4) (by simpa [Element.toSys] using h4) ⟨1 / 100, 10⟩ (by norm_num) (by norm_num) sample Dt hDt
    (Pi.single (⟨2, hdim⟩ : Fin e.dim) 1) hn 1 one_pos 0 1
  have := losses_counted (m := 1) hc (fun i => Int.natCast_nonneg _) euler (fun t0 => euler_ok _) ⟨1 / 100, 10⟩ (by norm_num) (by norm_num) sample hs 1 N [Dt] (by simpa using hDt) _ hn () 1 one_pos 0 1 z g hz 2
  have hsupp : ∀ j : Fin e.dim, (Pi.single (⟨2, hdim⟩ : Fin e.dim) (1 : ℂ) : Fin e.dim → ℂ) j ≠ 0 → ((j : ℕ) : ℤ) = (2 : ℕ) := by
    intro j hj
    by_cases hj' : j = ⟨2, hdim⟩
    · rw [hj']
    · rw [Pi.single_eq_of_ne hj'] at hj; exact absurd rfl hj
  exact ⟨N, z, g, hz, this.1 fun j hj => (hsupp j hj).le, fun i hi => this.2 hsupp i hi⟩

end CppQED.Counting
