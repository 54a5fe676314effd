import Verif.Lemmas.UnravelComposite

/-! # Property C117: composite systems in Monte Carlo trajectories -/

namespace CppQED.Unravel
open CppQED.Composite CppQED.Spec CppQED.PTrace CppQED.Slice CppQED.Interactions CppQED.Elem
open CppQED.MII (Idx)
open Matrix
open scoped ComplexConjugate

variable {n : ℕ}

/-- What is required of an element: it has the Hamiltonian `H`, the jumps `J`, and the rates belonging to them; its frequencies `w` do not make the state grow; and after subtraction of a uniform
decay `g`, which may be missing from its Hamiltonian, its Hamiltonian and jumps conserve the probability. -/
structure TrajectoryFree (e : Element) (w : ℕ → ℂ) (H : Dens) (J : List Dens) (g : ℝ) : Prop where
  pos : 0 < e.dim
  free : FreeIs e w H J
  decays : ∀ i < e.dim, 0 ≤ (w i).re
  rates : SliceRates e J
  nonneg : 0 ≤ g
  conserving : Conserving (mat e.dim H - (g : ℂ) • 1) (J.map (mat e.dim))

/-- Monte Carlo trajectories do not use the superoperators. -/
theorem Unravels.of_implemented.{v, w} {c : Comp} {e : Enum c.lb c.ub n} {rates : ℝ → (Fin n → ℂ) → List ℝ} {A : Matrix (Fin n) (Fin n) ℂ} {J : List (Matrix (Fin n) (Fin n) ℂ)} {b b' : ℕ → Bool}
    (h : Unravels.{v, w} (c.toSys b e) rates A J) : Unravels.{v, w} (c.toSys b' e) rates A J := by
  have hm : ∀ {κ : Type v} (make : (ℝ → (Fin n → ℂ) → Fin n → ℂ) → ODE.Stepper (Fin n → ℂ) κ), (c.toSys b e).toMCWF make rates = (c.toSys b' e).toMCWF make rates := by
    intro κ make
    unfold Master.Sys.toMCWF Comp.toSys
    congr 1
    simp only
    split_ifs <;> rfl
  obtain ⟨h1, h2, h3⟩ := h
  unfold Attained at h2
  simp only [hm] at h1 h2 h3
  exact ⟨h1, h2, h3⟩

/-- A composite of elements and interactions, as linear system. -/
theorem composite_pictured (es : List Element) (acts : List Part) (h0 : es ≠ []) (hd : ∀ e ∈ es, 0 < e.dim) (w : ℕ → ℕ → ℂ) (H : ℕ → Dens) (J : ℕ → List Dens) (V : Part → Idx → Idx → ℂ)
    (hF : ∀ k e, es[k]? = some e → FreeIs e (w k) (H k) (J k))
    (hI : ∀ ia ∈ acts, ia.li = none ∧ ValidAxes es.length ia.axes ∧ 2 ≤ ia.axes.length ∧ Couples ia (ia.axes.map fun a => (es.map Element.dim).getD a 0) (ia.axes.map w) (V ia))
    (hsz : ((List.range es.length).map fun k => (J k).length).sum < 2 ^ 64) (en : Enum (composite es acts).lb (composite es acts).ub n) :
    Pictured ((composite es acts).toSys (fun _ => false) en) (fun k => ∑ a ∈ Finset.range es.length, w a ((en k : Idx).getD a 0).toNat)
      ((boxMat en fun i j => ∑ k ∈ Finset.range es.length, extend es.length [k] (single (H k)) i j + (acts.map fun ia => extend es.length ia.axes (V ia) i j).sum) +
        Matrix.diagonal fun k => ∑ a ∈ Finset.range es.length, w a ((en k : Idx).getD a 0).toNat)
      ((composite es acts).nAvrLA .li) (fun m => boxMat en (((composite es acts).jumps fun k j => single ((J k).getD j 0)).getD m 0)) := by
  have hL : ∀ k e, es[k]? = some e → LiIs e (J k) := fun k e h => by obtain ⟨_, -, -, h, -⟩ := hF k e h; exact h
  have hA' : ∀ ia ∈ acts, ia.li = none := fun ia h => (hI ia h).1
  obtain ⟨w', V', hw, hok, hr, hE, hA, hH, hT⟩ := composite_components es acts h0 hd w H V (fun k e h => ⟨J k, hF k e h⟩) fun ia h => (hI ia h).2
  have hN := nAvr_parts es acts J hL hA'
  have hsz' : ((composite es acts).parts.map (nAvr .li)).sum < 2 ^ 64 := by
    rw [hN, List.sum_append]
    simpa using hsz
  obtain ⟨G, U, lin, hU, hG⟩ := comp_linear (composite es acts) hok hr w' V' hE hA hH (fun _ => false) (fun k j => single ((J k).getD j 0)) (composite_jump es acts J hL hA')
    (fun _ _ _ _ _ _ _ h => by simp at h) hsz' en
  refine ⟨G, U, lin, fun t t0 => ?_, fun t t0 => ?_⟩
  · rw [hU]
    congr 1
    funext k
    simp only [hw]
    rfl
  · rw [hG]
    congr 1
    ext x y
    have h1 := hT _ _ (enum_box hok.bounds.2.1 en x) (enum_box hok.bounds.2.1 en y)
    unfold Comp.hamiltonian at h1
    rw [Matrix.add_apply]
    simp only [boxMat, Matrix.of_apply]
    rw [← h1, Matrix.diagonal_apply]
    have hxy : ((en x : Idx) = en y) ↔ x = y := by rw [Subtype.coe_inj, en.injective.eq_iff]
    by_cases h : x = y
    · rw [if_pos h, if_pos (hxy.2 h)]
      simp only [hw]
      have : (composite es acts).r = es.length := rfl
      rw [this]
      ring
    · rw [if_neg h, if_neg (fun h' => h (hxy.1 h'))]
      ring

/-- The rates of a composite. -/
theorem composite_rates (es : List Element) (acts : List Part) (h0 : es ≠ []) (hd : ∀ e ∈ es, 0 < e.dim) (J : ℕ → List Dens) (hL : ∀ k e, es[k]? = some e → LiIs e (J k)) (hR : ∀ k e, es[k]? = some e → SliceRates e (J k))
    (hA' : ∀ ia ∈ acts, ia.li = none) (hok : (composite es acts).Ok) (en : Enum (composite es acts).lb (composite es acts).ub n) :
    RatesOf ((composite es acts).nAvrLA .li) (fun m => boxMat en (((composite es acts).jumps fun k j => single ((J k).getD j 0)).getD m 0)) ((composite es acts).mcwfRates en) := by
  refine comp_rates (composite es acts) hok _ ?_ ?_ en
  · intro p hp
    obtain ⟨k, hk⟩ := List.getElem?_of_mem hp
    rcases getElem?_parts es acts k p hk with ⟨e, h1, rfl⟩ | h
    · exact (freePart_rates (hL k e h1) (hR k e h1) k).1
    · intro t m
      simp [average, nAvr, getLA, hA' p h]
  · intro k p li h hl j hj
    obtain ⟨e, h1, rfl, h2⟩ := composite_part es acts hA' k p li h hl
    have hlb : sliceBound [k] (composite es acts).lb = lower [e.dim] := by simp only [composite]; rw [sliceBound_one es k e h1]; rfl
    have hub : sliceBound [k] (composite es acts).ub = upper [e.dim] := by simp only [composite]; rw [sliceBound_one es k e h1]; rfl
    have hn := freePart_nAvr (hL k e h1) k
    simp only [nAvr, getLA, h2, Option.map_some] at hn
    have := (freePart_rates (hL k e h1) (hR k e h1) k).2 j (by rw [← hn]; exact hj)
    simp only [hlb, hub]
    exact this

/-- A uniform decay of the elements is a uniform decay of the composite. -/
theorem composite_conserving_decay (es : List Element) (acts : List Part) (h0 : es ≠ []) (hd : ∀ e ∈ es, 0 < e.dim) (H : ℕ → Dens) (J : ℕ → List Dens) (V : Part → Idx → Idx → ℂ) (g : ℕ → ℝ)
    (hF : ∀ k e, es[k]? = some e → Conserving (mat e.dim (H k) - (g k : ℂ) • 1) ((J k).map (mat e.dim))) (hI : ∀ ia ∈ acts, ValidAxes es.length ia.axes ∧ AntiHermitian (V ia))
    (en : Enum (composite es acts).lb (composite es acts).ub n) :
    Conserving ((boxMat en fun i j => ∑ k ∈ Finset.range es.length, extend es.length [k] (single (H k)) i j + (acts.map fun ia => extend es.length ia.axes (V ia) i j).sum) -
        ((∑ k ∈ Finset.range es.length, g k : ℝ) : ℂ) • 1)
      ((List.range es.length).flatMap fun k => (J k).map fun j => boxMat en (extend es.length [k] (single j))) := by
  have hb : ValidBounds (composite es acts).lb (composite es acts).ub := validBounds_of es h0 hd
  have hlen : (composite es acts).lb.length = es.length := by simp [composite]
  have key := composite_conserving es acts h0 hd (fun k i j => H k i j - if i = j then (g k : ℂ) else 0) J V (by
    intro k e h
    have := hF k e h
    have e1 : mat e.dim (fun i j => H k i j - if i = j then (g k : ℂ) else 0) = mat e.dim (H k) - (g k : ℂ) • 1 := by
      ext x y
      simp [mat_apply, Matrix.one_apply, Fin.ext_iff]
    rw [e1]
    exact this) hI en
  refine Eq.mp ?_ key
  congr 1
  ext x y
  rw [Matrix.sub_apply, Matrix.smul_apply, Matrix.one_apply]
  simp only [boxMat, Matrix.of_apply]
  have hx := enum_box hb.2.1 en x
  have hy := enum_box hb.2.1 en y
  have hone : ∀ k ∈ Finset.range es.length, extend es.length [k] (single fun i j => H k i j - if i = j then (g k : ℂ) else 0) (en x) (en y) =
      extend es.length [k] (single (H k)) (en x) (en y) - if x = y then (g k : ℂ) else 0 := by
    intro k hk
    have hk' := Finset.mem_range.1 hk
    have he := List.getElem?_eq_getElem hk'
    have px := (getD_nonneg es (i := (en x : Idx)) hx (a := k) he).1
    have py := (getD_nonneg es (i := (en y : Idx)) hy (a := k) he).1
    unfold extend
    by_cases hag : AgreeOff es.length [k] (en x : Idx) (en y)
    · rw [if_pos hag, if_pos hag]
      simp only [Spec.single]
      congr 1
      have : (q (coords [k] (en x : Idx)) 0 = q (coords [k] (en y : Idx)) 0) ↔ x = y := by
        constructor
        · intro h
          have h' : (en x : Idx).getD k 0 = (en y : Idx).getD k 0 := by
            have : ((en x : Idx).getD k 0).toNat = ((en y : Idx).getD k 0).toNat := by simpa [q, coords] using h
            omega
          have hl1 : (en x : Idx).length = es.length := hx.1.trans hlen
          have hl2 : (en y : Idx).length = es.length := hy.1.trans hlen
          refine en.injective (Subtype.ext (List.ext_getElem (hl1.trans hl2.symm) fun a ha1 ha2 => ?_))
          have hh : (en x : Idx).getD a 0 = (en y : Idx).getD a 0 := by
            by_cases hak : a = k
            · rw [hak]; exact h'
            · exact hag a (by omega) (by simpa using hak)
          simpa [List.getD_eq_getElem?_getD, ha1, ha2] using hh
        · rintro rfl; rfl
      simp only [this]
    · rw [if_neg hag, if_neg hag, if_neg, sub_zero]
      rintro rfl
      exact hag fun _ _ _ => rfl
  rw [Finset.sum_congr rfl hone, Finset.sum_sub_distrib]
  by_cases h : x = y
  · simp only [if_pos h]
    push_cast
    rw [smul_eq_mul]
    ring
  · simp only [if_neg h, Finset.sum_const_zero, smul_zero, sub_zero]

/-- **C117.** A composite of elements, coupled by interactions without losses, in Monte Carlo trajectories: the average of the trajectories solves the Master equation of the sum of the Hamiltonians and of the
jumps of the elements one after the other. This holds in whatever pictures of the elements (also in those including the losses, which are not allowed in the Master equation), and whatever the order of storage is. -/
theorem composite_unravels.{v, w} (es : List Element) (acts : List Part) (h0 : es ≠ []) (w : ℕ → ℕ → ℂ) (H : ℕ → Dens) (J : ℕ → List Dens) (V : Part → Idx → Idx → ℂ) (g : ℕ → ℝ)
    (hF : ∀ k e, es[k]? = some e → TrajectoryFree e (w k) (H k) (J k) (g k)) (hli : ∃ e ∈ es, e.li.isSome)
    (hI : ∀ ia ∈ acts, ia.li = none ∧ ValidAxes es.length ia.axes ∧ 2 ≤ ia.axes.length ∧ Couples ia (ia.axes.map fun a => (es.map Element.dim).getD a 0) (ia.axes.map w) (V ia) ∧ AntiHermitian (V ia))
    (hsz : ((List.range es.length).map fun k => (J k).length).sum < 2 ^ 64) (implemented : ℕ → Bool) (en : Enum (composite es acts).lb (composite es acts).ub n) :
    Unravels.{v, w} ((composite es acts).toSys implemented en) ((composite es acts).mcwfRates en)
      ((boxMat en fun i j => ∑ k ∈ Finset.range es.length, extend es.length [k] (single (H k)) i j + (acts.map fun ia => extend es.length ia.axes (V ia) i j).sum) -
        ((∑ k ∈ Finset.range es.length, g k : ℝ) : ℂ) • 1)
      ((List.range es.length).flatMap fun k => (J k).map fun j => boxMat en (extend es.length [k] (single j))) := by
  have hd : ∀ e ∈ es, 0 < e.dim := by
    intro e he
    obtain ⟨k, hk⟩ := List.getElem?_of_mem he
    exact (hF k e hk).pos
  have hb : ValidBounds (composite es acts).lb (composite es acts).ub := validBounds_of es h0 hd
  have hL : ∀ k e, es[k]? = some e → LiIs e (J k) := fun k e h => by obtain ⟨_, -, -, h, -⟩ := (hF k e h).free; exact h
  have hA' : ∀ ia ∈ acts, ia.li = none := fun ia h => (hI ia h).1
  obtain ⟨-, -, -, hok, -⟩ := composite_components es acts h0 hd w H V (fun k e h => ⟨J k, (hF k e h).free⟩) fun ia h => ⟨(hI ia h).2.1, (hI ia h).2.2.1, (hI ia h).2.2.2.1⟩
  have hP := composite_pictured es acts h0 hd w H J V (fun k e h => (hF k e h).free) (fun ia h => ⟨(hI ia h).1, (hI ia h).2.1, (hI ia h).2.2.1, (hI ia h).2.2.2.1⟩) hsz en
  have hR := composite_rates es acts h0 hd J hL (fun k e h => (hF k e h).rates) hA' hok en
  have hC := composite_conserving_decay es acts h0 hd H J V g (fun k e h => (hF k e h).conserving) (fun ia h => ⟨(hI ia h).2.1, (hI ia h).2.2.2.2⟩) en
  have hlist : (List.range ((composite es acts).nAvrLA .li)).map (fun m => boxMat en (((composite es acts).jumps fun k j => single ((J k).getD j 0)).getD m 0)) =
      (List.range es.length).flatMap fun k => (J k).map fun j => boxMat en (extend es.length [k] (single j)) := by
    rw [← composite_jumps es acts J hL hA' en, ← jumps_length _ fun k j => single ((J k).getD j 0)]
    exact map_range_getD _ 0 (boxMat en)
  rw [← hlist] at hC ⊢
  have := picture_unravels.{v, w} _ _ _ _ _ hP (fun i => ?_) ?_ (∑ k ∈ Finset.range es.length, g k) (Finset.sum_nonneg fun k hk => ?_) (by rwa [add_sub_cancel_right]) _ hR
  · rw [add_sub_cancel_right] at this
    exact this.of_implemented
  · have hi := enum_box hb.2.1 en i
    rw [Complex.re_sum]
    refine Finset.sum_nonneg fun a ha => ?_
    have he := List.getElem?_eq_getElem (Finset.mem_range.1 ha)
    obtain ⟨p1, p2⟩ := getD_nonneg es (i := (en i : Idx)) hi (a := a) he
    exact (hF a _ he).decays _ p2
  · obtain ⟨e, he, h⟩ := hli
    unfold Comp.toSys
    simp only
    rw [if_pos]
    · rfl
    · rw [List.any_eq_true]
      obtain ⟨k, hk, rfl⟩ := List.getElem_of_mem he
      refine ⟨{ freePart es[k] with axes := [k] }, ?_, by simpa [freePart] using h⟩
      unfold Comp.parts
      refine List.mem_append_left _ (List.mem_mapIdx.2 ⟨k, by simpa [composite] using hk, by simp [composite]⟩)
  · exact (hF k _ (List.getElem?_eq_getElem (Finset.mem_range.1 hk))).nonneg

/-! ## Binary systems -/

/-- The derivative of the state vector and the jumps of a binary system are those of the composite of the same components. -/
theorem bin_pictured (b : Bin) (hb : ValidBounds b.lb b.ub) (hl : b.lb.length = 2) (hI : InBounds b.lb b.ub b.ia) (hd : b.free1.li.isSome ∨ nAvr .li b.free0 = 0 ∨ b.ia.li = none) (hsz : b.nAvr .li < 2 ^ 64)
    (e : Enum b.lb b.ub n) {W : Fin n → ℂ} {V : Matrix (Fin n) (Fin n) ℂ} {J : ℕ → Matrix (Fin n) (Fin n) ℂ} (h : Pictured (b.toComp.toSys (fun _ => false) e) W V (b.toComp.nAvrLA .li) J) :
    Pictured (b.toSys (fun _ => false) e) W V (b.toComp.nAvrLA .li) J ∧ ((b.toSys (fun _ => false) e).li.isSome ↔ (b.toComp.toSys (fun _ => false) e).li.isSome) := by
  have hany : ∀ f : Part → Bool, (∀ p V, f { p with axes := V } = f p) → b.toComp.parts.any f = (f b.free0 || f b.free1 || f b.ia) := by
    intro f hf
    simp [Comp.parts, Bin.toComp, hf, Bool.or_assoc]
  have hha : (b.toSys (fun _ => false) e).ha = (b.toComp.toSys (fun _ => false) e).ha := by
    unfold Bin.toSys Comp.toSys
    simp only
    rw [hany (fun p => p.ha.isSome) fun _ _ => rfl]
    congr 1
    congr 1
    funext t psi dpsidt t0 k
    exact bin_comp_addContribution b hb hl hI t t0 _ _ _ (enum_box hb.2.1 e k)
  obtain ⟨hex, -⟩ := bin_toSys b hb hl hI hd hsz (fun _ => false) e
  have hcond : (b.free0.li.isSome || b.free1.li.isSome || b.ia.li.isSome) = b.toComp.parts.any (·.li.isSome) := (hany (fun p => p.li.isSome) fun _ _ => rfl).symm
  have hsome : (b.toSys (fun _ => false) e).li.isSome ↔ (b.toComp.toSys (fun _ => false) e).li.isSome := by
    unfold Bin.toSys Comp.toSys
    simp only [hcond]
    split_ifs <;> simp
  refine ⟨?_, hsome⟩
  obtain ⟨G, U, lin, hU, hG⟩ := h
  refine ⟨G, U, ⟨by rw [hha]; exact lin.ha, by rw [hha]; exact lin.ha_none, by rw [hex]; exact lin.ex, by rw [hex]; exact lin.ex_none, ?_, ?_, ?_⟩, hU, hG⟩
  · intro l hl'
    have hc := lin.jumps
    unfold Bin.toSys at hl'
    unfold Comp.toSys at hc
    simp only at hl' hc
    rw [hcond] at hl'
    by_cases hs : b.toComp.parts.any (·.li.isSome) = true
    swap
    · rw [if_neg hs] at hl'; cases hl'
    rw [if_pos hs] at hc hl'
    obtain ⟨-, h2⟩ := hc _ rfl
    rw [Option.some.injEq] at hl'
    subst hl'
    refine ⟨bin_comp_nAvr b .li, fun i hi t psi => ?_⟩
    rw [← h2 i hi t psi]
    funext k
    refine bin_comp_actWithJ b hb hl hI hd hsz t _ i (lt_trans hi ?_) _ (enum_box hb.2.1 e k)
    rw [← bin_comp_nAvr b]
    exact hsz
  · intro l hl' i _ t rho d d' _ h
    unfold Bin.toSys at hl'
    simp only at hl'
    by_cases hs : (b.free0.li.isSome || b.free1.li.isSome || b.ia.li.isSome) = true
    swap
    · rw [if_neg hs] at hl'; cases hl'
    rw [if_pos hs, Option.some.injEq] at hl'
    subst hl'
    simp at h
  · intro hn
    refine lin.li_none ?_
    rw [← Option.not_isSome_iff_eq_none, ← hsome, Option.not_isSome_iff_eq_none]
    exact hn

/-- Monte Carlo trajectories do not use the superoperators. -/
theorem Unravels.of_implemented_bin.{v, w} {c : Bin} {e : Enum c.lb c.ub n} {rates : ℝ → (Fin n → ℂ) → List ℝ} {A : Matrix (Fin n) (Fin n) ℂ} {J : List (Matrix (Fin n) (Fin n) ℂ)} {b b' : ℕ → Bool}
    (h : Unravels.{v, w} (c.toSys b e) rates A J) : Unravels.{v, w} (c.toSys b' e) rates A J := by
  have hm : ∀ {κ : Type v} (make : (ℝ → (Fin n → ℂ) → Fin n → ℂ) → ODE.Stepper (Fin n → ℂ) κ), (c.toSys b e).toMCWF make rates = (c.toSys b' e).toMCWF make rates := by
    intro κ make
    unfold Master.Sys.toMCWF Bin.toSys
    congr 1
    simp only
    split_ifs <;> rfl
  obtain ⟨h1, h2, h3⟩ := h
  unfold Attained at h2
  simp only [hm] at h1 h2 h3
  exact ⟨h1, h2, h3⟩

/-- **C117.** Binary systems in Monte Carlo trajectories: the average of the trajectories solves the Master equation of `H⊗1 + 1⊗H' + V` with the jumps `J⊗1` and `1⊗J'`. -/
theorem binary_unravels.{v, w} (e0 e1 : Element) (ia : Part) {w0 w1 : ℕ → ℂ} {H0 H1 : Dens} {J0 J1 : List Dens} {g0 g1 : ℝ} {H : Idx → Idx → ℂ} (h0 : TrajectoryFree e0 w0 H0 J0 g0)
    (h1 : TrajectoryFree e1 w1 H1 J1 g1) (hl : e0.li.isSome ∨ e1.li.isSome) (hI : Couples ia [e0.dim, e1.dim] [w0, w1] H) (hH : AntiHermitian H) (hli : ia.li = none) (hav : ia.av = none)
    (hsz : J0.length + J1.length < 2 ^ 64) (implemented : ℕ → Bool) (en : Enum (binary e0 e1 ia).lb (binary e0 e1 ia).ub n) :
    Unravels.{v, w} ((binary e0 e1 ia).toSys implemented en) ((binary e0 e1 ia).mcwfRates en)
      ((boxMat en fun i j => tensor H0 one i j + tensor one H1 i j + H i j) - ((g0 + g1 : ℝ) : ℂ) • 1)
      (J0.map (fun j => boxMat en (tensor j one)) ++ J1.map (fun j => boxMat en (tensor one j))) := by
  let es := [e0, e1]
  let acts : List Part := [{ ia with axes := [0, 1] }]
  have hes : es ≠ [] := by simp [es]
  let en' : Enum (composite es acts).lb (composite es acts).ub n := en
  let w : ℕ → ℕ → ℂ := fun k => if k = 0 then w0 else w1
  let HH : ℕ → Dens := fun k => if k = 0 then H0 else H1
  let JJ : ℕ → List Dens := fun k => if k = 0 then J0 else J1
  let gg : ℕ → ℝ := fun k => if k = 0 then g0 else g1
  have hF : ∀ k e, es[k]? = some e → TrajectoryFree e (w k) (HH k) (JJ k) (gg k) := by
    intro k e h
    rcases k with _ | _ | k
    · simp only [es, List.getElem?_cons_zero, Option.some.injEq] at h; subst h; exact h0
    · simp only [es, List.getElem?_cons_succ, List.getElem?_cons_zero, Option.some.injEq] at h; subst h; exact h1
    · simp [es] at h
  have hd : ∀ e ∈ es, 0 < e.dim := by
    intro e he
    obtain ⟨k, hk⟩ := List.getElem?_of_mem he
    exact (hF k e hk).pos
  have hb : ValidBounds (binary e0 e1 ia).lb (binary e0 e1 ia).ub := validBounds_of es hes hd
  have hacts : ∀ ia' ∈ acts, ia'.li = none ∧ ValidAxes es.length ia'.axes ∧ 2 ≤ ia'.axes.length ∧ Couples ia' (ia'.axes.map fun a => (es.map Element.dim).getD a 0) (ia'.axes.map w) H := by
    intro ia' h
    simp only [acts, List.mem_cons, List.not_mem_nil, or_false] at h
    subst h
    exact ⟨hli, ⟨by simp, by simp, by simp [es]⟩, by simp, hI⟩
  have hL : ∀ k e, es[k]? = some e → LiIs e (JJ k) := fun k e h => by obtain ⟨_, -, -, h, -⟩ := (hF k e h).free; exact h
  have hA' : ∀ ia ∈ acts, ia.li = none := fun ia h => (hacts ia h).1
  obtain ⟨-, -, -, hok, -⟩ := composite_components es acts hes hd w HH (fun _ => H) (fun k e h => ⟨JJ k, (hF k e h).free⟩) fun ia h => (hacts ia h).2
  have hP := composite_pictured es acts hes hd w HH JJ (fun _ => H) (fun k e h => (hF k e h).free) hacts (by simpa [es, JJ, List.range_succ] using hsz) en'
  have hR := composite_rates es acts hes hd JJ hL (fun k e h => (hF k e h).rates) hA' hok en'
  have hC := composite_conserving_decay es acts hes hd HH JJ (fun _ => H) gg (fun k e h => (hF k e h).conserving) (fun ia h => ⟨(hacts ia h).2.1, hH⟩) en'
  have hIn : InBounds (binary e0 e1 ia).lb (binary e0 e1 ia).ub (binary e0 e1 ia).ia := couples_inBounds hI hli hav
  have n0 : nAvr .li (freePart e0) = J0.length := freePart_nAvr (hL 0 e0 rfl) 0
  have n1 : nAvr .li (freePart e1) = J1.length := freePart_nAvr (hL 1 e1 rfl) 0
  have hsz' : (binary e0 e1 ia).nAvr .li < 2 ^ 64 := by
    simp only [Bin.nAvr, binary, n0, n1]
    simp [nAvr, getLA, hli]
    omega
  obtain ⟨hP', hsome⟩ := bin_pictured (binary e0 e1 ia) hb rfl hIn (Or.inr (Or.inr hli)) hsz' en hP
  have l0 : LengthOK .li (freePart e0) := (freePart_rates (hL 0 e0 rfl) (hF 0 e0 rfl).rates 0).1
  have l1 : LengthOK .li (freePart e1) := (freePart_rates (hL 1 e1 rfl) (hF 1 e1 rfl).rates 1).1
  have hav' : (binary e0 e1 ia).mcwfRates en = (composite es acts).mcwfRates en' := by
    funext t psi
    exact bin_comp_average (binary e0 e1 ia) hb rfl hIn .li t _ l0 l1 (by intro t m; simp [average, nAvr, getLA, binary, hli])
  have hlist : (List.range ((composite es acts).nAvrLA .li)).map (fun m => boxMat en' (((composite es acts).jumps fun k j => single ((JJ k).getD j 0)).getD m 0)) =
      (List.range es.length).flatMap fun k => (JJ k).map fun j => boxMat en' (extend es.length [k] (single j)) := by
    refine Eq.trans ?_ (composite_jumps es acts JJ hL hA' en')
    rw [← jumps_length _ fun k j => single ((JJ k).getD j 0)]
    exact map_range_getD _ 0 (boxMat en')
  rw [← hlist] at hC
  have key := picture_unravels.{v, w} _ _ _ _ _ hP' (fun i => ?_) ?_ (∑ k ∈ Finset.range es.length, gg k) (Finset.sum_nonneg fun k hk => ?_) (by rw [add_sub_cancel_right]; exact hC) _ hR
  · rw [add_sub_cancel_right] at key
    have e1' := binary_hamiltonian e0 e1 ia h0.pos h1.pos en HH H
    have e2' := binary_jumps e0 e1 ia h0.pos h1.pos en JJ
    have eg : (∑ k ∈ Finset.range es.length, gg k) = g0 + g1 := by simp [es, gg, Finset.sum_range_succ]
    rw [eg] at key
    rw [hav']
    refine Unravels.of_implemented_bin (b := fun _ => false) ?_
    have fin : ∀ A A' B B', A = A' → B = B' → Unravels.{v, w} ((binary e0 e1 ia).toSys (fun _ => false) en) ((composite es acts).mcwfRates en') A B →
        Unravels.{v, w} ((binary e0 e1 ia).toSys (fun _ => false) en) ((composite es acts).mcwfRates en') A' B' := by
      rintro _ _ _ _ rfl rfl h; exact h
    exact fin _ _ _ _ (congrArg (fun A => A - ((g0 + g1 : ℝ) : ℂ) • (1 : Matrix (Fin n) (Fin n) ℂ)) e1') (hlist.trans e2') key
  · have hi := enum_box hb.2.1 en i
    rw [Complex.re_sum]
    refine Finset.sum_nonneg fun a ha => ?_
    have he := List.getElem?_eq_getElem (Finset.mem_range.1 ha)
    obtain ⟨p1, p2⟩ := getD_nonneg es (i := (en i : Idx)) hi (a := a) he
    exact (hF a _ he).decays _ p2
  · unfold Bin.toSys
    simp only
    rw [if_pos]
    · rfl
    · rcases hl with h | h
      · simp [binary, freePart, h]
      · simp [binary, freePart, h]
  · exact (hF k _ (List.getElem?_eq_getElem (Finset.mem_range.1 hk))).nonneg

end CppQED.Unravel
