import Verif.Spec.Independence
import Verif.Props.IdenticalParticles

/-!
# Subsystems that do not interact evolve independently: C147
-/

namespace CppQED.Interactions
open CppQED.ScriptSys (linear_zero)
open CppQED.Elem CppQED.Tridiag CppQED.ModeEl CppQED.Spec CppQED.Composite CppQED.PTrace Matrix
open CppQED.Slice (Arr sliceBound)
open CppQED.MII (Idx)
open ComplexConjugate

/-! ## One element alone -/

theorem alone_schroedinger {e : Element} {w : ℕ → ℂ} {H : Dens} {J : List Dens} (h : FreeIs e w H J) {t0 : ℝ} {φ : ℝ → Vec} (hφ : Alone e t0 φ) (t : ℝ) {n : ℕ} (hn : n < e.dim) :
    physical e t0 t0 (φ t0) n = φ t0 n ∧ HasDerivAt (fun s => physical e s t0 (φ s) n) (∑ m ∈ Finset.range e.dim, H n m * physical e t t0 (φ t) m) t := by
  obtain ⟨V, hH, hE, -, hV⟩ := h
  have hp : ∀ s, ∀ m < e.dim, physical e s t0 (φ s) m = uDiag w (s - t0) m * φ s m := by
    intro s m hm
    unfold physical
    rw [dif_pos hm, toSchroedinger_eq hE]
    rfl
  refine ⟨by rw [hp _ _ hn]; simp [uDiag], ?_⟩
  have e1 : (fun s => physical e s t0 (φ s) n) = fun s => uDiag w (s - t0) n * φ s n := by funext s; exact hp s n hn
  rw [e1]
  refine ((uDiag_hasDerivAt w t0 t n).mul (hφ t ⟨n, hn⟩)).congr_deriv ?_
  rw [rhs_eq hH, mulVec_ket]
  have e2 : ∀ m ∈ Finset.range e.dim, H n m * physical e t t0 (φ t) m = V n m * (uDiag w (t - t0) m * φ t m) - if n = m then w n * (uDiag w (t - t0) m * φ t m) else 0 := by
    intro m hm
    rw [hp _ _ (Finset.mem_range.1 hm), ← hV n hn m (Finset.mem_range.1 hm)]
    split_ifs <;> ring
  rw [Finset.sum_congr rfl e2, Finset.sum_sub_distrib, Finset.sum_ite_eq, if_pos (Finset.mem_range.2 hn), Finset.mul_sum]
  have e3 : ∀ m ∈ Finset.range e.dim, uDiag w (t - t0) n * (interactionPicture w V (t - t0) n m * φ t m) = V n m * (uDiag w (t - t0) m * φ t m) := by
    intro m _
    have : uDiag w (t - t0) n * interactionPicture w V (t - t0) n m = V n m * uDiag w (t - t0) m := by
      have := congrFun (congrFun (uDiag_ip (max n m + 1) w V (t - t0)) ⟨n, by omega⟩) ⟨m, by omega⟩
      rwa [Matrix.diagonal_mul, Matrix.mul_diagonal] at this
    rw [← mul_assoc, this, mul_assoc]
  rw [Finset.sum_congr rfl e3]
  ring

/-! ## Product states -/

theorem dims_box (es : List Element) : (es.map fun _ => (0 : ℤ)) = lower (es.map Element.dim) ∧ (es.map fun e => (e.dim : ℤ) - 1) = upper (es.map Element.dim) := by
  simp only [lower, upper, List.map_map]; exact ⟨rfl, rfl⟩

theorem index_bounds {es : List Element} {i : Idx} (hi : InBox (es.map fun _ => (0 : ℤ)) (es.map fun e => (e.dim : ℤ) - 1) i) (k : Fin es.length) :
    k < i.length ∧ i.getD k 0 = (q i k : ℤ) ∧ q i k < es[k].dim := by
  obtain ⟨h1, h2⟩ := hi
  have h3 := h2 k (by simp)
  have h1' : i.length = es.length := by simpa using h1
  have h4 : 0 ≤ i.getD k 0 ∧ i.getD k 0 < (es[k].dim : ℤ) := by simpa using h3
  unfold q
  have h5 := k.2
  refine ⟨by omega, by omega, by omega⟩

theorem box_geo (es : List Element) (hd : ∀ e ∈ es, 0 < e.dim) (k : Fin es.length) : Geo es.length [(k : ℕ)] (es.map fun _ => (0 : ℤ)) (es.map fun e => (e.dim : ℤ) - 1) :=
  ⟨⟨by simp, by simp, by simp⟩, validBounds_of es (fun h => by have := k.2; simp [h] at this) hd, by simp⟩

/-- An operator of one of the subsystems acts on its factor of a product. -/
theorem product_action (es : List Element) (hd : ∀ e ∈ es, 0 < e.dim) (k : Fin es.length) (A : Dens) (φ : Fin es.length → Vec) {i : Idx}
    (hi : InBox (es.map fun _ => (0 : ℤ)) (es.map fun e => (e.dim : ℤ) - 1) i) :
    matAction (es.map fun _ => (0 : ℤ)) (es.map fun e => (e.dim : ℤ) - 1) (extend es.length [(k : ℕ)] (single A)) (productOf φ) i =
      productOf (Function.update φ k fun n => ∑ m ∈ Finset.range es[k].dim, A n m * φ k m) i := by
  rw [← extension_eq (box_geo es hd k) (single A) (productOf φ) i hi]
  have hk : es[(k : ℕ)]? = some es[k] := by simp
  rw [sliceBound_one es k es[k] hk, sliceBound_one es k es[k] hk]
  change ∑ s ∈ boxFinset (lower [es[k].dim]) (upper [es[k].dim]), _ = _
  rw [sum_box, sum_natBox_one]
  unfold productOf
  rw [Fintype.prod_eq_mul_prod_compl k, Function.update_self, Finset.sum_mul]
  refine Finset.sum_congr rfl fun m _ => ?_
  simp only []
  rw [Fintype.prod_eq_mul_prod_compl k]
  have hil := (index_bounds hi k).1
  have e1 : q (Spec.replace [(k : ℕ)] (up [m]) i) k = m := by
    unfold q
    rw [Slice.replace_getD _ _ _ _ hil]
    simp [up]
  have e2 : ∀ l ∈ ({k}ᶜ : Finset (Fin es.length)), φ l (q (Spec.replace [(k : ℕ)] (up [m]) i) l) = Function.update φ k (fun n => ∑ m ∈ Finset.range es[k].dim, A n m * φ k m) l (q i l) := by
    intro l hl
    have hne : l ≠ k := by simpa using hl
    rw [Function.update_of_ne hne]
    congr 1
    unfold q
    rw [Slice.replace_getD _ _ _ _ (index_bounds hi l).1]
    simp [Fin.val_ne_of_ne hne]
  rw [e1, Finset.prod_congr rfl e2]
  simp only [Spec.single, q, coords, up, List.map_cons, List.map_nil, List.getD_cons_zero, Int.ofNat_eq_natCast, Int.toNat_natCast]
  ring

theorem product_hasDerivAt {n : ℕ} (f : Fin n → ℝ → Vec) (g : Fin n → Vec) (t : ℝ) (i : Idx) (h : ∀ k, HasDerivAt (fun s => f k s (q i k)) (g k (q i k)) t) :
    HasDerivAt (fun s => productOf (fun k => f k s) i) (∑ k, productOf (Function.update (fun k => f k t) k (g k)) i) t := by
  have := HasDerivAt.fun_finset_prod (u := Finset.univ) (f := fun k s => f k s (q i k)) (f' := fun k => g k (q i k)) (x := t) fun k _ => h k
  refine this.congr_deriv (Finset.sum_congr rfl fun k _ => ?_)
  unfold productOf
  rw [← Finset.mul_prod_erase Finset.univ _ (Finset.mem_univ k), Function.update_self, smul_eq_mul, mul_comm]
  congr 1
  refine Finset.prod_congr rfl fun l hl => ?_
  rw [Function.update_of_ne (Finset.ne_of_mem_erase hl)]

/-- **C147.** Any number of subsystems with the Hamiltonians `H k`, with interactions among them which have no Hamiltonian (as `structure::Interaction` alone): if in the beginning of a step the state is a
product, then the state of the composite system at any time is the product of the solutions of the Schrödinger equations of the subsystems. -/
theorem independent_schroedinger (es : List Element) (acts : List Part) (h0 : es ≠ []) (hd : ∀ e ∈ es, 0 < e.dim) (H : Fin es.length → Dens) (hF : ∀ k : Fin es.length, ∃ w J, FreeIs es[k] w (H k) J)
    (hI : ∀ ia ∈ acts, ValidAxes es.length ia.axes ∧ 2 ≤ ia.axes.length ∧ ia.ex = none ∧ ia.ha = none) (t0 : ℝ) (χ : Fin es.length → ℝ → Vec)
    (hχ : ∀ k, SolvesSchroedinger es[k].dim (H k) (χ k)) (psi : ℝ → Idx → ℂ)
    (hpsi : ∀ t i, InBox (composite es acts).lb (composite es acts).ub i → HasDerivAt (fun s => psi s i) ((composite es acts).addContribution t t0 (psi t) (fun _ => 0) i) t)
    (hini : ∀ i, InBox (composite es acts).lb (composite es acts).ub i → psi t0 i = productOf (fun k => χ k t0) i) (t : ℝ) (i : Idx) (hi : InBox (composite es acts).lb (composite es acts).ub i) :
    (composite es acts).actWithU t t0 (psi t) i = productOf (fun k => χ k t) i := by
  choose w J hfree using hF
  let W : ℕ → ℕ → ℂ := fun k => if h : k < es.length then w ⟨k, h⟩ else 0
  let K : ℕ → Dens := fun k => if h : k < es.length then H ⟨k, h⟩ else 0
  have hK : ∀ k : Fin es.length, K k = H k := fun k => by simp [K]
  have sim := composite_simulates es acts h0 hd W K (fun _ _ _ => 0) (fun k e he => by
    obtain ⟨hk, rfl⟩ := List.getElem?_eq_some_iff.1 he
    refine ⟨J ⟨k, hk⟩, ?_⟩
    have := hfree ⟨k, hk⟩
    simpa [W, K, hk] using this) fun ia hia => by
      obtain ⟨a, b, c, d⟩ := hI ia hia
      refine ⟨a, b, c, fun _ _ => ?_⟩
      rw [d]
      exact fun _ _ _ _ => rfl
  have hl : (composite es acts).ub.length = (composite es acts).lb.length := by simp [composite]
  have key := linear_zero hl (fun i j => ∑ k ∈ Finset.range es.length, extend es.length [k] (single (K k)) i j + (acts.map fun ia => extend es.length ia.axes (fun _ _ => 0) i j).sum)
    (fun s i => (composite es acts).actWithU s t0 (psi s) i - productOf (fun k => χ k s) i) ?_ t0 ?_ t i hi
  · exact sub_eq_zero.1 key
  · intro s j hj
    refine ((sim t0 s psi (hpsi s) j hj).2.sub (product_hasDerivAt χ
      (fun k n => ∑ m ∈ Finset.range es[k].dim, H k n m * χ k s m) s j fun k => hχ k s _ (index_bounds hj k).2.2)).congr_deriv ?_
    have e1 : matAction (composite es acts).lb (composite es acts).ub (fun i j => ∑ k ∈ Finset.range es.length, extend es.length [k] (single (K k)) i j +
        (acts.map fun ia => extend es.length ia.axes (fun _ _ => 0) i j).sum) (productOf fun k => χ k s) j =
        ∑ k, productOf (Function.update (fun k => χ k s) k fun n => ∑ m ∈ Finset.range es[k].dim, H k n m * χ k s m) j := by
      have z : ∀ i j, (acts.map fun ia => extend es.length ia.axes (fun _ _ => (0 : ℂ)) i j).sum = 0 := by
        intro i j
        refine List.sum_eq_zero fun x hx => ?_
        obtain ⟨ia, -, rfl⟩ := List.mem_map.1 hx
        simp [extend]
      simp only [z, add_zero]
      have e2 : ∀ k : Fin es.length, _ := fun k => product_action es hd k (H k) (fun k => χ k s) hj
      rw [← Finset.sum_congr rfl fun k _ => e2 k]
      unfold matAction
      rw [Finset.sum_comm]
      refine Finset.sum_congr rfl fun l _ => ?_
      simp only []
      rw [Finset.sum_range, Finset.sum_mul]
      refine Finset.sum_congr rfl fun k _ => ?_
      rw [hK]
    rw [← e1]
    unfold matAction
    rw [← Finset.sum_sub_distrib]
    exact Finset.sum_congr rfl fun l _ => by ring
  · intro j hj
    rw [(sim t0 t0 psi (hpsi t0) j hj).1, hini j hj, sub_self]

/-- **C147.** The same in terms of what is simulated: if in the beginning of a step the state is a product, then the state of the
composite system at any time is the product of the states obtained by simulating each of the subsystems alone. -/
theorem independent_evolution (es : List Element) (acts : List Part) (h0 : es ≠ []) (hd : ∀ e ∈ es, 0 < e.dim) (hF : ∀ k : Fin es.length, ∃ w H J, FreeIs es[k] w H J)
    (hI : ∀ ia ∈ acts, ValidAxes es.length ia.axes ∧ 2 ≤ ia.axes.length ∧ ia.ex = none ∧ ia.ha = none) (t0 : ℝ) (φ : Fin es.length → ℝ → Vec) (hφ : ∀ k, Alone es[k] t0 (φ k))
    (psi : ℝ → Idx → ℂ)
    (hpsi : ∀ t i, InBox (composite es acts).lb (composite es acts).ub i → HasDerivAt (fun s => psi s i) ((composite es acts).addContribution t t0 (psi t) (fun _ => 0) i) t)
    (hini : ∀ i, InBox (composite es acts).lb (composite es acts).ub i → psi t0 i = productOf (fun k => φ k t0) i) (t : ℝ) (i : Idx) (hi : InBox (composite es acts).lb (composite es acts).ub i) :
    (composite es acts).actWithU t t0 (psi t) i = productOf (fun k => physical es[k] t t0 (φ k t)) i := by
  choose w H J hfree using hF
  refine independent_schroedinger es acts h0 hd H (fun k => ⟨w k, J k, hfree k⟩) hI t0 (fun k s => physical es[k] s t0 (φ k s))
    (fun k t n hn => (alone_schroedinger (hfree k) (hφ k) t hn).2) psi hpsi (fun j hj => ?_) t i hi
  rw [hini j hj]
  unfold productOf
  exact Finset.prod_congr rfl fun k _ => ((alone_schroedinger (hfree k) (hφ k) t0 (index_bounds hj k).2.2).1).symm

/-! ## Jumps -/

theorem composite_ok (es : List Element) (acts : List Part) (h0 : es ≠ []) (hd : ∀ e ∈ es, 0 < e.dim) (hI : ∀ ia ∈ acts, ValidAxes es.length ia.axes) : (composite es acts).Ok := by
  refine ⟨validBounds_of es h0 hd, by simp [composite], fun p hp => ?_⟩
  unfold Comp.parts at hp
  rcases List.mem_append.1 hp with h | h
  · obtain ⟨k, hk, rfl⟩ := List.mem_mapIdx.1 h
    simp only [composite, List.length_map] at hk ⊢
    exact ⟨by simp, by simp, by simpa using hk⟩
  · exact hI p h

theorem freePart_count (e : Element) (k : ℕ) : nAvr .li { freePart e with axes := [k] } = jumpCount e := by
  unfold jumpCount
  cases hl : e.li with
  | none => simp [nAvr, getLA, freePart, hl]
  | some L => simp [nAvr, getLA, freePart, hl]

theorem parts_counts (es : List Element) (acts : List Part) : (composite es acts).parts.map (nAvr .li) = es.map jumpCount ++ acts.map (nAvr .li) := by
  unfold Comp.parts
  rw [List.map_append]
  congr 1
  refine List.ext_getElem (by simp [composite]) fun k h1 h2 => ?_
  simp only [composite, List.getElem_map, List.getElem_mapIdx]
  exact freePart_count _ _

/-- **C147.** A jump of one of the subsystems changes only the factor of that subsystem, and to the same as it is changed when the subsystem is simulated alone. -/
theorem independent_jump (es : List Element) (acts : List Part) (h0 : es ≠ []) (hd : ∀ e ∈ es, 0 < e.dim) (hI : ∀ ia ∈ acts, ValidAxes es.length ia.axes)
    (hsz : (es.map jumpCount ++ acts.map (nAvr .li)).sum < 2 ^ 64) (k : Fin es.length) {J : List Dens} (hL : LiIs es[k] J) {L : Liouvillean} (hl : es[k].li = some L) {j : ℕ}
    (hj : j < L.labels.length) (φ : Fin es.length → Vec) (psi : Arr ℂ)
    (hpsi : ∀ i, InBox (composite es acts).lb (composite es acts).ub i → psi i = productOf φ i) (t : ℝ) :
    ∃ φ', L.actWithJ j (φ k) = .ok φ' ∧ ∀ i, InBox (composite es acts).lb (composite es acts).ub i →
      (composite es acts).actWithJ t psi (((es.take k).map jumpCount).sum + j) i = productOf (Function.update φ k φ') i := by
  have hL' := hL
  unfold LiIs at hL'
  rw [hl] at hL'
  simp only at hL'
  obtain ⟨φ', f1, f2⟩ := (hL'.2 j (by rw [← hL'.1]; exact hj)).1 (φ k)
  refine ⟨φ', f1, fun i hi => ?_⟩
  have hpk : (composite es acts).parts[(k : ℕ)]? = some { freePart es[k] with axes := [(k : ℕ)] } := by
    unfold Comp.parts
    rw [List.getElem?_append_left (by simp [composite]), List.getElem?_mapIdx]
    simp [composite]
  have hli : ∃ li, (freePart es[k]).li = some li ∧ li.nAvr = L.labels.length := by
    simp only [freePart, hl]; exact ⟨_, rfl, rfl⟩
  obtain ⟨li, l1, l2⟩ := hli
  have hb1 : sliceBound [(k : ℕ)] (composite es acts).lb = lower [es[k].dim] := by
    change sliceBound [(k : ℕ)] (es.map fun _ => (0 : ℤ)) = _
    rw [sliceBound_one es k es[k] (by simp)]; rfl
  have hb2 : sliceBound [(k : ℕ)] (composite es acts).ub = upper [es[k].dim] := by
    change sliceBound [(k : ℕ)] (es.map fun e => (e.dim : ℤ) - 1) = _
    rw [sliceBound_one es k es[k] (by simp)]; rfl
  have := comp_jump_operator_box (composite es acts) (composite_ok es acts h0 hd hI) t psi k j _ li hpk l1 (by rw [l2]; exact hj) (by rw [parts_counts]; exact hsz) (single (J.getD j 0))
    (fun psi s hs => by
      simp only [hb1, hb2] at hs ⊢
      exact freePart_jump hL l1 j (by rw [l2]; exact hj) t psi s hs) i hi
  rw [parts_counts] at this
  have ho : offset (es.map jumpCount ++ acts.map (nAvr .li)) k = ((es.take k).map jumpCount).sum := by
    unfold offset
    rw [List.take_append_of_le_length (by simp), List.map_take]
  rw [ho] at this
  rw [this]
  have e1 : matAction (composite es acts).lb (composite es acts).ub (extend es.length [(k : ℕ)] (single (J.getD j 0))) psi i =
      matAction (composite es acts).lb (composite es acts).ub (extend es.length [(k : ℕ)] (single (J.getD j 0))) (productOf φ) i :=
    Finset.sum_congr rfl fun l hl => by rw [hpsi l ((mem_boxFinset _ _ _ (by simp [composite])).1 hl)]
  refine e1.trans ((product_action es hd k _ φ hi).trans ?_)
  unfold productOf
  refine Finset.prod_congr rfl fun l _ => ?_
  by_cases h : l = k
  · subst h
    rw [Function.update_self, Function.update_self]
    have f3 := congrFun f2 ⟨q i l, (index_bounds hi l).2.2⟩
    rw [mulVec_ket] at f3
    exact f3.symm
  · rw [Function.update_of_ne h, Function.update_of_ne h]

end CppQED.Interactions
