import Verif.Props.Interactions
import Verif.Lemmas.ExtendAlgebra

/-!
# Composites of elements in the Master equation: C83
-/

namespace CppQED.Interactions
open CppQED.Elem CppQED.ModeEl CppQED.Spec CppQED.Composite CppQED.Tridiag CppQED.PTrace CppQED.Slice
open CppQED.MII (Idx)
open ComplexConjugate Matrix

/-! ## The jumps of a free element as component -/

theorem one_box {d : ℕ} {s : Idx} (hs : InBox (lower [d]) (upper [d]) s) : ∃ n : ℕ, n < d ∧ s = [(n : ℤ)] := by
  obtain ⟨h1, h2⟩ := (box_iff _ s).1 hs
  obtain ⟨n, hn⟩ := List.length_eq_one_iff.1 (length_of_mem h1)
  refine ⟨n, ?_, by rw [← h2, hn]; rfl⟩
  rw [hn] at h1
  exact (mem_natBox_one _ _).1 h1

theorem freePart_nAvr {e : Element} {J : List Dens} (h : LiIs e J) (k : ℕ) : nAvr .li { freePart e with axes := [k] } = J.length := by
  unfold LiIs at h
  cases hl : e.li with
  | none => rw [hl] at h; simp only at h; simp [nAvr, getLA, freePart, hl, h]
  | some L => rw [hl] at h; simp only at h; simp [nAvr, getLA, freePart, hl, h.1]

theorem freePart_jump {e : Element} {J : List Dens} (h : LiIs e J) {li : Li} (hli : (freePart e).li = some li) (j : ℕ) (hj : j < li.nAvr) (t : ℝ) (psi : Arr ℂ) (s : Idx)
    (hs : InBox (lower [e.dim]) (upper [e.dim]) s) : li.actWithJ t j psi s = matAction (lower [e.dim]) (upper [e.dim]) (single (J.getD j 0)) psi s := by
  unfold LiIs at h
  cases hl : e.li with
  | none => simp [freePart, hl] at hli
  | some L =>
    rw [hl] at h
    simp only at h
    simp only [freePart, hl, Option.map_some, Option.some.injEq] at hli
    subst hli
    obtain ⟨n, hn, rfl⟩ := one_box hs
    obtain ⟨psi', h1, h2⟩ := (h.2 j (by rw [← h.1]; exact hj)).1 fun n => psi [(n : ℤ)]
    have h2 := congrFun h2 ⟨n, hn⟩
    rw [mulVec_ket] at h2
    simp only [ket] at h2
    simp only [h1, List.getD_cons_zero, Int.toNat_natCast]
    rw [h2]
    unfold matAction
    rw [sum_box, sum_natBox_one]
    refine Finset.sum_congr rfl fun m _ => ?_
    simp [Spec.single, q, up]

theorem freePart_super {e : Element} {J : List Dens} (h : LiIs e J) {L : Liouvillean} (hl : e.li = some L) {li : Li} (hli : (freePart e).li = some li) (j : ℕ) (hj : j < li.nAvr)
    (hok : ∀ rho drhodt, ∃ d', L.actWithSuperoperator j rho drhodt = .ok d') (lb ub : Idx) (a : ℕ) (hlb : sliceBound [a] lb = lower [e.dim]) (hub : sliceBound [a] ub = upper [e.dim]) (t : ℝ) :
    SuperOK lb ub t [a] li j (single (J.getD j 0)) := by
  unfold LiIs at h
  rw [hl] at h
  simp only at h
  simp only [freePart, hl, Option.map_some, Option.some.injEq] at hli
  subst hli
  unfold SuperOK
  rw [hlb, hub]
  intro rho drhodt s s' hs hs'
  obtain ⟨n, hn, rfl⟩ := one_box ((mem_boxFinset _ _ _ (lower_length _)).1 hs)
  obtain ⟨m, hm, rfl⟩ := one_box ((mem_boxFinset _ _ _ (lower_length _)).1 hs')
  obtain ⟨d', h1⟩ := hok (fun a b => rho [(a : ℤ), (b : ℤ)]) (fun a b => drhodt [(a : ℤ), (b : ℤ)])
  have h2 := congrFun (congrFun ((h.2 j (by rw [← h.1]; exact hj)).2 _ _ _ h1) ⟨n, hn⟩) ⟨m, hm⟩
  simp only [mat_apply, Matrix.add_apply] at h2
  simp only [h1, List.cons_append, List.nil_append, List.getD_cons_zero, List.getD_cons_succ, Int.toNat_natCast]
  rw [h2]
  congr 1
  rw [sum_box, sum_natBox_one]
  simp only [sum_box, sum_natBox_one, Matrix.mul_apply, Matrix.conjTranspose_apply, mat_apply, Finset.sum_mul]
  rw [Finset.sum_comm, Finset.sum_range]
  refine Finset.sum_congr rfl fun x _ => ?_
  rw [Finset.sum_range]
  refine Finset.sum_congr rfl fun y _ => ?_
  simp [Spec.single, q, up]

/-! ## Composites -/

/-- The exact part of the element commutes with its jumps up to a phase. -/
def CommutesUpToPhase (d : ℕ) (w : ℕ → ℂ) (J : List Dens) : Prop := ∀ j ∈ J, ∀ t : ℝ, ∃ c : ℂ, c * conj c = 1 ∧
  (Matrix.diagonal fun i : Fin d => uDiag w t i) * mat d j = c • (mat d j * Matrix.diagonal fun i : Fin d => uDiag w t i)

variable {n : ℕ}

theorem getElem?_parts (es : List Element) (acts : List Part) (k : ℕ) (p : Part) (h : (composite es acts).parts[k]? = some p) :
    (∃ e, es[k]? = some e ∧ p = { freePart e with axes := [k] }) ∨ p ∈ acts := by
  unfold Comp.parts at h
  by_cases hk : k < es.length
  · left
    rw [List.getElem?_append_left (by simpa [composite] using hk), List.getElem?_mapIdx] at h
    simp only [composite, List.getElem?_map, List.getElem?_eq_getElem hk, Option.map_some, Option.some.injEq] at h
    exact ⟨_, List.getElem?_eq_getElem hk, h.symm⟩
  · right
    rw [List.getElem?_append_right (by simpa [composite] using hk)] at h
    exact List.mem_of_getElem? h

/-- The numbers of jumps of the components. -/
theorem nAvr_parts (es : List Element) (acts : List Part) (J : ℕ → List Dens) (hL : ∀ k e, es[k]? = some e → LiIs e (J k)) (hA : ∀ ia ∈ acts, ia.li = none) :
    (composite es acts).parts.map (nAvr .li) = (List.range es.length).map (fun k => (J k).length) ++ acts.map fun _ => 0 := by
  unfold Comp.parts
  rw [List.map_append]
  congr 1
  · apply List.ext_getElem
    · simp [composite]
    · intro k h1 h2
      have hk : k < es.length := by simpa [composite] using h1
      simp only [composite, List.getElem_map, List.getElem_mapIdx, List.getElem_range]
      exact freePart_nAvr (hL k _ (List.getElem?_eq_getElem hk)) k
  · refine List.map_congr_left fun ia h => ?_
    simp [nAvr, getLA, hA ia h]

theorem offset_parts (es : List Element) (acts : List Part) (J : ℕ → List Dens) (hL : ∀ k e, es[k]? = some e → LiIs e (J k)) (hA : ∀ ia ∈ acts, ia.li = none) (k : ℕ) (hk : k < es.length) :
    offset ((composite es acts).parts.map (nAvr .li)) k = ((List.range k).map fun l => (J l).length).sum := by
  rw [nAvr_parts es acts J hL hA]
  unfold offset
  rw [List.take_append_of_le_length (by simpa using hk.le), ← List.map_take, List.take_range, min_eq_left hk.le]

/-- A component with jumps is a free element. -/
theorem composite_part (es : List Element) (acts : List Part) (hA' : ∀ ia ∈ acts, ia.li = none) (k : ℕ) (p : Part) (li : Li) (h : (composite es acts).parts[k]? = some p) (hl : p.li = some li) :
    ∃ e, es[k]? = some e ∧ p = { freePart e with axes := [k] } ∧ (freePart e).li = some li := by
  rcases getElem?_parts es acts k p h with ⟨e, h1, rfl⟩ | h
  · exact ⟨e, h1, rfl, hl⟩
  · rw [hA' p h] at hl; simp at hl

/-- The jumps of the components. -/
theorem composite_jump (es : List Element) (acts : List Part) (J : ℕ → List Dens) (hL : ∀ k e, es[k]? = some e → LiIs e (J k)) (hA' : ∀ ia ∈ acts, ia.li = none) (k : ℕ) (p : Part) (li : Li)
    (h : (composite es acts).parts[k]? = some p) (hl : p.li = some li) (j : ℕ) (hj : j < li.nAvr) (t : ℝ) (psi : Arr ℂ) (s : Idx)
    (hs : InBox (sliceBound p.axes (composite es acts).lb) (sliceBound p.axes (composite es acts).ub) s) :
    li.actWithJ t j psi s = matAction (sliceBound p.axes (composite es acts).lb) (sliceBound p.axes (composite es acts).ub) (single ((J k).getD j 0)) psi s := by
  obtain ⟨e, h1, rfl, h2⟩ := composite_part es acts hA' k p li h hl
  have hlb : sliceBound [k] (composite es acts).lb = lower [e.dim] := by simp only [composite]; rw [sliceBound_one es k e h1]; rfl
  have hub : sliceBound [k] (composite es acts).ub = upper [e.dim] := by simp only [composite]; rw [sliceBound_one es k e h1]; rfl
  simp only at hs ⊢
  rw [hlb, hub] at hs ⊢
  exact freePart_jump (hL k e h1) h2 j hj t psi s hs

/-- The list of the jumps. -/
theorem composite_jumps (es : List Element) (acts : List Part) (J : ℕ → List Dens) (hL : ∀ k e, es[k]? = some e → LiIs e (J k)) (hA' : ∀ ia ∈ acts, ia.li = none)
    (en : Enum (composite es acts).lb (composite es acts).ub n) :
    ((composite es acts).jumps fun k j => single ((J k).getD j 0)).map (boxMat en) =
      (List.range es.length).flatMap fun k => (J k).map fun j => boxMat en (extend es.length [k] (single j)) := by
  unfold Comp.jumps Comp.parts
  rw [List.mapIdx_append, List.flatten_append, List.map_append]
  have : ((acts.mapIdx fun i p => (List.range (nAvr .li p)).map fun j => extend (composite es acts).r p.axes (single ((J (i + ((composite es acts).frees.mapIdx fun idx p => { p with axes := [idx] }).length)).getD j 0))).flatten) = [] := by
    rw [List.flatten_eq_nil_iff]
    intro l hl
    obtain ⟨i, hi, rfl⟩ := List.mem_mapIdx.1 hl
    simp [nAvr, getLA, hA' _ (List.getElem_mem hi)]
  have h2 : (composite es acts).acts = acts := rfl
  rw [h2, this, List.map_nil, List.append_nil, ← List.flatMap_id, List.map_flatMap, List.flatMap_def, List.flatMap_def]
  congr 1
  apply List.ext_getElem
  · simp [composite]
  · intro k h1 h2
    have hk : k < es.length := by simpa [composite] using h2
    simp only [composite, List.getElem_map, List.getElem_mapIdx, List.getElem_range, List.map_map, id_eq]
    rw [freePart_nAvr (hL k _ (List.getElem?_eq_getElem hk)) k]
    apply List.ext_getElem
    · simp
    · intro m h3 h4
      have hm : m < (J k).length := by simpa using h4
      simp [List.getElem?_eq_getElem hm]

/-- **C83.** A composite of free elements and interactions in the Master equation: the physical density operator follows the Master equation of the sum of the Hamiltonians of the elements and of the
interactions, and of the jumps of the elements one after the other. -/
theorem composite_master (es : List Element) (acts : List Part) (h0 : es ≠ []) (hd : ∀ e ∈ es, 0 < e.dim) (w : ℕ → ℕ → ℂ) (H : ℕ → Dens) (J : ℕ → List Dens) (V : Part → Idx → Idx → ℂ)
    (hF : ∀ k e, es[k]? = some e → FreeIs e (w k) (H k) (J k) ∧ CommutesUpToPhase e.dim (w k) (J k))
    (hI : ∀ ia ∈ acts, ia.li = none ∧ ValidAxes es.length ia.axes ∧ 2 ≤ ia.axes.length ∧ Couples ia (ia.axes.map fun a => (es.map Element.dim).getD a 0) (ia.axes.map w) (V ia))
    (implemented : ℕ → Bool)
    (hS : ∀ k e L, es[k]? = some e → e.li = some L → ∀ j < (J k).length, implemented (((List.range k).map fun l => (J l).length).sum + j) = true →
      ∀ rho drhodt, ∃ d', L.actWithSuperoperator j rho drhodt = .ok d')
    (hsz : ((List.range es.length).map fun k => (J k).length).sum < 2 ^ 64) (en : Enum (composite es acts).lb (composite es acts).ub n) :
    FollowsMaster ((composite es acts).toSys implemented en)
      (boxMat en fun i j => ∑ k ∈ Finset.range es.length, extend es.length [k] (single (H k)) i j + (acts.map fun ia => extend es.length ia.axes (V ia) i j).sum)
      ((List.range es.length).flatMap fun k => (J k).map fun j => boxMat en (extend es.length [k] (single j))) := by
  have hL : ∀ k e, es[k]? = some e → LiIs e (J k) := fun k e h => by obtain ⟨⟨_, -, -, h, -⟩, -⟩ := hF k e h; exact h
  have hA' : ∀ ia ∈ acts, ia.li = none := fun ia h => (hI ia h).1
  obtain ⟨w', V', hw, hok, hr, hE, hA, hH, hT⟩ := composite_components es acts h0 hd w H V (fun k e h => ⟨J k, (hF k e h).1⟩) fun ia h => (hI ia h).2
  have hN := nAvr_parts es acts J hL hA'
  have hsz' : ((composite es acts).parts.map (nAvr .li)).sum < 2 ^ 64 := by
    rw [hN, List.sum_append]
    simpa using hsz
  have hlb : ∀ k e, es[k]? = some e → sliceBound [k] (composite es acts).lb = lower [e.dim] := fun k e h => by simp only [composite]; rw [sliceBound_one es k e h]; rfl
  have hub : ∀ k e, es[k]? = some e → sliceBound [k] (composite es acts).ub = upper [e.dim] := fun k e h => by simp only [composite]; rw [sliceBound_one es k e h]; rfl
  -- a component with jumps is a free element
  have hpart := composite_part es acts hA'
  have hnum : ∀ k e li, es[k]? = some e → (freePart e).li = some li → li.nAvr = (J k).length := by
    intro k e li h hl
    have := freePart_nAvr (hL k e h) k
    simpa [nAvr, getLA, hl] using this
  have hJ : JumpsOK (composite es acts) implemented w' fun k j => single ((J k).getD j 0) := by
    refine ⟨composite_jump es acts J hL hA', ?_, ?_⟩
    · intro k p li h hl j hj himp t
      obtain ⟨e, h1, rfl, h2⟩ := hpart k p li h hl
      obtain ⟨L, hL'⟩ : ∃ L, e.li = some L := by
        cases hx : e.li with
        | none => simp [freePart, hx] at h2
        | some L => exact ⟨L, rfl⟩
      rw [offset_parts es acts J hL hA' k (by by_contra hc; rw [List.getElem?_eq_none (by omega)] at h1; simp at h1)] at himp
      exact freePart_super (hL k e h1) hL' h2 j hj (hS k e L h1 hL' j (by rw [← hnum k e li h1 h2]; exact hj) himp) _ _ k (hlb k e h1) (hub k e h1) t
    · intro k p li h hl j hj τ
      obtain ⟨e, h1, rfl, h2⟩ := hpart k p li h hl
      rw [hnum k e li h1 h2] at hj
      have hmem : (J k).getD j 0 ∈ J k := by
        rw [List.getD_eq_getElem?_getD, List.getElem?_eq_getElem hj]
        exact List.getElem_mem _
      obtain ⟨z, hz1, hz2⟩ := (hF k e h1).2 _ hmem τ
      refine ⟨z, hz1, fun s s' hs hs' => ?_⟩
      simp only at hs hs'
      rw [hlb k e h1, hub k e h1] at hs hs'
      obtain ⟨x, hx, rfl⟩ := one_box hs
      obtain ⟨y, hy, rfl⟩ := one_box hs'
      have := congrFun (congrFun hz2 ⟨x, hx⟩) ⟨y, hy⟩
      rw [Matrix.diagonal_mul, Matrix.smul_apply, Matrix.mul_diagonal, smul_eq_mul] at this
      simpa [mat_apply, uDiag, Spec.single, q, phaseOf, hw] using this
  have key := comp_master (composite es acts) hok hr w' V' hE hA hH implemented _ hJ hsz' en
  have e1 : boxMat en ((composite es acts).hamiltonian w' V') =
      boxMat en fun i j => ∑ k ∈ Finset.range es.length, extend es.length [k] (single (H k)) i j + (acts.map fun ia => extend es.length ia.axes (V ia) i j).sum := by
    ext x y
    exact hT _ _ (enum_box hok.bounds.2.1 en x) (enum_box hok.bounds.2.1 en y)
  have e2 : ((composite es acts).jumps fun k j => single ((J k).getD j 0)).map (boxMat en) =
      (List.range es.length).flatMap fun k => (J k).map fun j => boxMat en (extend es.length [k] (single j)) := composite_jumps es acts J hL hA' en
  rw [e1, e2] at key
  exact key

end CppQED.Interactions
