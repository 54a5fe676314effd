import Verif.Model.CompositeMaster
import Verif.Lemmas.MasterPicture
import Verif.Props.CompositePicture

/-!
# Composite systems in the Master equation: C83
-/

namespace CppQED.Composite
open CppQED.MII (Idx)
open CppQED.Slice CppQED.Spec CppQED.PTrace
open ComplexConjugate Matrix

variable {lb ub : Idx} {n : ℕ}

theorem sum_enum (e : Enum lb ub n) (f : Idx → ℂ) : ∑ s ∈ boxFinset lb ub, f s = ∑ k : Fin n, f (e k) := by
  rw [← Finset.sum_coe_sort, ← Equiv.sum_comp e]

theorem unflatten_enum (e : Enum lb ub n) (v : Fin n → ℂ) (k : Fin n) : unflatten e v (e k) = v k := by
  unfold unflatten
  rw [dif_pos (e k).2]
  simp

theorem matAction_enum (e : Enum lb ub n) (A : Idx → Idx → ℂ) (v : Fin n → ℂ) (k : Fin n) : matAction lb ub A (unflatten e v) (e k) = (boxMat e A *ᵥ v) k := by
  unfold matAction
  rw [sum_enum e fun s => A (e k) s * unflatten e v s]
  simp only [unflatten_enum]
  rfl

theorem enum_box (hl : ub.length = lb.length) (e : Enum lb ub n) (k : Fin n) : InBox lb ub (e k) := (mem_boxFinset lb ub _ hl).1 (e k).2

theorem unflatten2_enum (hl : ub.length = lb.length) (e : Enum lb ub n) (m : Matrix (Fin n) (Fin n) ℂ) (k l : Fin n) : unflatten2 e m ((e k : Idx) ++ (e l : Idx)) = m k l := by
  have h1 : ((e k : Idx) ++ (e l : Idx)).take lb.length = e k := by rw [← (enum_box hl e k).1, List.take_left]
  have h2 : ((e k : Idx) ++ (e l : Idx)).drop lb.length = e l := by rw [← (enum_box hl e k).1, List.drop_left]
  unfold unflatten2
  rw [dif_pos (show _ ∧ _ from ⟨by rw [h1]; exact (e k).2, by rw [h2]; exact (e l).2⟩)]
  congr 1
  · rw [Equiv.symm_apply_eq]; exact Subtype.ext h1
  · rw [Equiv.symm_apply_eq]; exact Subtype.ext h2

theorem boxMat_diagonal (e : Enum lb ub n) (D : Idx → ℂ) : boxMat e (fun i j => if i = j then D i else 0) = Matrix.diagonal fun k => D (e k) := by
  ext k l
  simp only [boxMat, Matrix.of_apply, Matrix.diagonal_apply]
  by_cases h : k = l
  · simp [h]
  · rw [if_neg h, if_neg]
    intro h'
    exact h (e.injective (Subtype.ext h'))

/-! ## Numbering -/

/-- The operators of the jumps of the composite in the order of their numbers: those of the components one after the other, `J k j` being the jump `j` of the component `k`. -/
noncomputable def Comp.jumps (c : Comp) (J : ℕ → ℕ → Idx → Idx → ℂ) : List (Idx → Idx → ℂ) :=
  (c.parts.mapIdx fun k p => (List.range (nAvr .li p)).map fun j => extend c.r p.axes (J k j)).flatten

theorem flatten_getElem {α : Type*} (L : List (List α)) (m : ℕ) (a : α) (h : L.flatten[m]? = some a) :
    ∃ k j l, L[k]? = some l ∧ l[j]? = some a ∧ m = offset (L.map List.length) k + j := by
  induction L generalizing m with
  | nil => simp at h
  | cons l L ih =>
    rw [List.flatten_cons] at h
    by_cases hm : m < l.length
    · rw [List.getElem?_append_left hm] at h
      exact ⟨0, m, l, by simp, h, by simp [offset]⟩
    · rw [List.getElem?_append_right (by omega)] at h
      obtain ⟨k, j, l', h1, h2, h3⟩ := ih _ h
      refine ⟨k + 1, j, l', by simpa using h1, h2, ?_⟩
      rw [List.map_cons]
      unfold offset at h3 ⊢
      rw [List.take_succ_cons, List.sum_cons]
      omega

theorem jumps_spec (c : Comp) (J : ℕ → ℕ → Idx → Idx → ℂ) (m : ℕ) (A : Idx → Idx → ℂ) (h : (c.jumps J)[m]? = some A) :
    ∃ k j p li, c.parts[k]? = some p ∧ p.li = some li ∧ j < li.nAvr ∧ m = offset (c.parts.map (nAvr .li)) k + j ∧ A = extend c.r p.axes (J k j) := by
  obtain ⟨k, j, l, h1, h2, h3⟩ := flatten_getElem _ _ _ h
  rw [List.getElem?_mapIdx, Option.map_eq_some_iff] at h1
  obtain ⟨p, hp, rfl⟩ := h1
  rw [List.getElem?_map, Option.map_eq_some_iff] at h2
  obtain ⟨j', hj', rfl⟩ := h2
  obtain ⟨hj1, hj2⟩ := List.getElem?_eq_some_iff.1 hj'
  rw [List.getElem_range] at hj2
  subst hj2
  rw [List.length_range] at hj1
  have hli : ∃ li, p.li = some li := by
    cases hl : p.li with
    | none => simp [nAvr, getLA, hl] at hj1
    | some li => exact ⟨li, rfl⟩
  obtain ⟨li, hli⟩ := hli
  refine ⟨k, j, p, li, hp, hli, by simpa [nAvr, getLA, hli] using hj1, ?_, rfl⟩
  rw [h3]
  congr 2
  apply List.ext_getElem
  · simp
  · intro i _ _; simp

theorem nAvrLA_eq (c : Comp) (tag : Tag) : c.nAvrLA tag = (c.parts.map (nAvr tag)).sum := by
  unfold Comp.nAvrLA
  rw [foldl_add_sum]
  simp

theorem jumps_length (c : Comp) (J : ℕ → ℕ → Idx → Idx → ℂ) : (c.jumps J).length = c.nAvrLA .li := by
  unfold Comp.jumps
  rw [nAvrLA_eq, List.length_flatten]
  congr 1
  apply List.ext_getElem
  · simp
  · intro i _ _; simp

/-- The jump with a given number, where the component is known only in the array bounds. -/
theorem comp_jump_operator_box (c : Comp) (hc : c.Ok) (t : ℝ) (psi : Arr ℂ) (k j : ℕ) (p : Part) (li : Li) (hk : c.parts[k]? = some p) (hli : p.li = some li) (hj : j < li.nAvr)
    (hsz : (c.parts.map (nAvr .li)).sum < 2 ^ 64) (J : Idx → Idx → ℂ)
    (hJ : ∀ psi s, InBox (sliceBound p.axes c.lb) (sliceBound p.axes c.ub) s → li.actWithJ t j psi s = matAction (sliceBound p.axes c.lb) (sliceBound p.axes c.ub) J psi s)
    (i : Idx) (hi : InBox c.lb c.ub i) :
    c.actWithJ t psi (offset (c.parts.map (nAvr .li)) k + j) i = matAction c.lb c.ub (extend c.r p.axes J) psi i := by
  have hsb : (sliceBound p.axes c.ub).length = (sliceBound p.axes c.lb).length := by simp [sliceBound]
  have g := hc.geo (List.mem_of_getElem? hk)
  rw [comp_actWithJ c hc t psi k j p li hk hli hj hsz (fun a a' haa s hs => by rw [hJ _ _ hs, hJ _ _ hs, matAction_local _ _ hsb J a a' haa s hs]) i hi,
    hJ _ _ (g.mem_slice.1 (g.split (g.mem_full.2 hi)).1), extension_eq g J psi i hi]

/-! ## The Master equation -/

/-- What the composite theorem needs to know of the jumps of the components: `J k j` is the jump `j` of the component `k`, its superoperator, where implemented, adds `JρJ†`, and the free evolution of the
axes it acts on changes it only by a phase. -/
structure JumpsOK (c : Comp) (implemented : ℕ → Bool) (w : ℕ → ℤ → ℂ) (J : ℕ → ℕ → Idx → Idx → ℂ) : Prop where
  jump : ∀ k p li, c.parts[k]? = some p → p.li = some li → ∀ j < li.nAvr, ∀ t psi s, InBox (sliceBound p.axes c.lb) (sliceBound p.axes c.ub) s →
    li.actWithJ t j psi s = matAction (sliceBound p.axes c.lb) (sliceBound p.axes c.ub) (J k j) psi s
  super : ∀ k p li, c.parts[k]? = some p → p.li = some li → ∀ j < li.nAvr, implemented (offset (c.parts.map (nAvr .li)) k + j) = true → ∀ t, SuperOK c.lb c.ub t p.axes li j (J k j)
  phase : ∀ k p li, c.parts[k]? = some p → p.li = some li → ∀ j < li.nAvr, ∀ τ : ℝ, ∃ z : ℂ, z * conj z = 1 ∧ ∀ s s', InBox (sliceBound p.axes c.lb) (sliceBound p.axes c.ub) s →
    InBox (sliceBound p.axes c.lb) (sliceBound p.axes c.ub) s' →
    Complex.exp (-(phaseOf w p.axes s * τ)) * J k j s s' = z * (J k j s s' * Complex.exp (-(phaseOf w p.axes s' * τ)))

/-- A composite system as linear system, in the picture given by the frequencies of the free subsystems. -/
theorem comp_linear (c : Comp) (hc : c.Ok) (hr : c.frees.length = c.r) (w : ℕ → ℤ → ℂ) (V : Part → Idx → Idx → ℂ)
    (hE : ∀ t t0 idx p, c.frees[idx]? = some p → ExOK c.lb c.ub t t0 { p with axes := [idx] } (fun s => Complex.exp (-(w idx (s.getD 0 0) * (t - t0 : ℝ)))))
    (hA : ∀ p ∈ c.acts, p.ex = none)
    (hH : ∀ t t0, ∀ p ∈ c.parts, HaOK c.lb c.ub t t0 p (inPicture w p.axes (V p) (t - t0)))
    (implemented : ℕ → Bool) (J : ℕ → ℕ → Idx → Idx → ℂ)
    (hjump : ∀ k p li, c.parts[k]? = some p → p.li = some li → ∀ j < li.nAvr, ∀ t psi s, InBox (sliceBound p.axes c.lb) (sliceBound p.axes c.ub) s →
      li.actWithJ t j psi s = matAction (sliceBound p.axes c.lb) (sliceBound p.axes c.ub) (J k j) psi s)
    (hsuper : ∀ k p li, c.parts[k]? = some p → p.li = some li → ∀ j < li.nAvr, implemented (offset (c.parts.map (nAvr .li)) k + j) = true → ∀ t, SuperOK c.lb c.ub t p.axes li j (J k j))
    (hsz : (c.parts.map (nAvr .li)).sum < 2 ^ 64) (e : Enum c.lb c.ub n) :
    ∃ G U : ℝ → ℝ → Matrix (Fin n) (Fin n) ℂ, Master.Linear (c.toSys implemented e) G U (c.nAvrLA .li) (fun _ m => boxMat e ((c.jumps J).getD m 0)) ∧
      (∀ t t0, U t t0 = Matrix.diagonal fun k => Complex.exp (-((∑ a ∈ Finset.range c.r, w a ((e k : Idx).getD a 0)) * (t - t0 : ℝ)))) ∧
      ∀ t t0, U t t0 * G t t0 = boxMat e (fun i j => (c.parts.map fun p => extend c.r p.axes (V p) i j).sum) * U t t0 := by
  have hl := hc.bounds.2.1
  let W : Fin n → ℂ := fun k => ∑ a ∈ Finset.range c.r, w a ((e k : Idx).getD a 0)
  let G : ℝ → ℝ → Matrix (Fin n) (Fin n) ℂ := fun t t0 => boxMat e fun i j => (c.parts.map fun p => extend c.r p.axes (inPicture w p.axes (V p) (t - t0)) i j).sum
  let U : ℝ → ℝ → Matrix (Fin n) (Fin n) ℂ := fun t t0 => Matrix.diagonal fun i => Complex.exp (-(W i * (t - t0 : ℝ)))
  let Js : ℕ → Matrix (Fin n) (Fin n) ℂ := fun m => boxMat e ((c.jumps J).getD m 0)
  have hU : ∀ t t0 (x : Arr ℂ) j, InBox c.lb c.ub j → c.actWithU t t0 x j = _ := fun t t0 x j hj => comp_propagator c hc hr w t t0 (hE t t0) hA x j hj
  have hspec : ∀ m < c.nAvrLA .li, ∃ k j p li, c.parts[k]? = some p ∧ p.li = some li ∧ j < li.nAvr ∧ m = offset (c.parts.map (nAvr .li)) k + j ∧ (c.jumps J).getD m 0 = extend c.r p.axes (J k j) := by
    intro m hm
    rw [← jumps_length c J] at hm
    obtain ⟨k, j, p, li, h1, h2, h3, h4, h5⟩ := jumps_spec c J m _ (List.getElem?_eq_getElem hm)
    exact ⟨k, j, p, li, h1, h2, h3, h4, by rw [List.getD_eq_getElem?_getD, List.getElem?_eq_getElem hm]; exact h5⟩
  have lin : Master.Linear (c.toSys implemented e) G U (c.nAvrLA .li) fun _ => Js := by
    refine ⟨?_, ?_, ?_, ?_, ?_, ?_, ?_⟩
    · intro f hf t psi d t0
      unfold Comp.toSys at hf
      simp only at hf
      split_ifs at hf with h
      rw [Option.some.injEq] at hf
      subst hf
      funext k
      beta_reduce
      rw [comp_addContribution c hc t t0 _ (hH t t0) _ _ _ (enum_box hl e k), unflatten_enum, matAction_enum]
      rfl
    · intro hn t t0
      unfold Comp.toSys at hn
      simp only at hn
      split_ifs at hn with h
      simp only [List.any_eq_true, not_exists, not_and, Bool.not_eq_true, Option.isSome_eq_false_iff, Option.isNone_iff_eq_none] at h
      ext k l
      simp only [G, boxMat, Matrix.of_apply, Matrix.zero_apply]
      apply List.sum_eq_zero
      intro x hx
      obtain ⟨p, hp, rfl⟩ := List.mem_map.1 hx
      unfold extend
      split_ifs with hag
      · have := hH t t0 p hp
        unfold HaOK at this
        rw [h p hp] at this
        have g := hc.geo hp
        exact this _ _ (g.mem_slice.1 (g.split (e k).2).1) (g.mem_slice.1 (g.split (e l).2).1)
      · rfl
    · intro f hf t psi t0
      unfold Comp.toSys at hf
      simp only at hf
      split_ifs at hf with h
      rw [Option.some.injEq] at hf
      subst hf
      funext k
      beta_reduce
      rw [hU _ _ _ _ (enum_box hl e k), unflatten_enum, Matrix.mulVec_diagonal, mul_comm]
    · intro hn t t0
      unfold Comp.toSys at hn
      simp only at hn
      split_ifs at hn with h
      simp only [List.any_eq_true, not_exists, not_and, Bool.not_eq_true, Option.isSome_eq_false_iff, Option.isNone_iff_eq_none] at h
      have hid : ∀ k, Complex.exp (-(W k * (t - t0 : ℝ))) = 1 := by
        intro k
        have h1 := hU t t0 (fun _ => 1) (e k) (enum_box hl e k)
        have h2 : c.actWithU t t0 (fun _ => 1) = fun _ => 1 := by
          unfold Comp.actWithU
          have : ∀ L : List Part, (∀ p ∈ L, p.ex = none) → L.foldl (propagation c.r c.lb c.ub t t0) (fun _ => 1) = fun _ => (1 : ℂ) := by
            intro L
            induction L with
            | nil => intro _; rfl
            | cons p L ih =>
              intro hL
              rw [List.foldl_cons]
              have : propagation c.r c.lb c.ub t t0 (fun _ => 1) p = fun _ => (1 : ℂ) := by unfold propagation; rw [hL p (by simp)]
              rw [this]
              exact ih fun q hq => hL q (by simp [hq])
          exact this _ h
        rw [h2, one_mul] at h1
        exact h1.symm
      ext k l
      simp only [U, Matrix.diagonal_apply, Matrix.one_apply, hid]
    · intro l hli
      unfold Comp.toSys at hli
      simp only at hli
      split_ifs at hli with h
      rw [Option.some.injEq] at hli
      subst hli
      refine ⟨rfl, fun m hm t psi => ?_⟩
      obtain ⟨k, j, p, li, h1, h2, h3, h4, h5⟩ := hspec m hm
      funext x
      change c.actWithJ t (unflatten e psi) m (e x) = _
      simp only [Js]
      rw [h5, h4, comp_jump_operator_box c hc t _ k j p li h1 h2 h3 hsz (J k j) (hjump k p li h1 h2 j h3 t) _ (enum_box hl e x), matAction_enum]
    · intro l hli m hm t rho d d' _ hs
      unfold Comp.toSys at hli
      simp only at hli
      split_ifs at hli with h
      rw [Option.some.injEq] at hli
      subst hli
      simp only at hs
      split_ifs at hs with hi
      rw [Option.some.injEq] at hs
      subst hs
      obtain ⟨k, j, p, li, h1, h2, h3, h4, h5⟩ := hspec m hm
      ext x y
      simp only [Js, Matrix.of_apply, Matrix.add_apply]
      rw [h5, h4, comp_superoperator_operator c hc t _ _ k j p li h1 h2 h3 hsz (J k j) (hsuper k p li h1 h2 j h3 (h4 ▸ hi) t) _ _ (enum_box hl e x) (enum_box hl e y),
        unflatten2_enum hl, sum_enum e]
      congr 1
      simp only [Matrix.mul_apply, Matrix.conjTranspose_apply, boxMat, Matrix.of_apply, Finset.sum_mul]
      conv_rhs => rw [Finset.sum_comm]
      refine Finset.sum_congr rfl fun a _ => ?_
      rw [sum_enum e]
      refine Finset.sum_congr rfl fun b _ => ?_
      rw [unflatten2_enum hl]
      rfl
    · intro hn
      unfold Comp.toSys at hn
      simp only at hn
      split_ifs at hn with h
      simp only [List.any_eq_true, not_exists, not_and, Bool.not_eq_true, Option.isSome_eq_false_iff, Option.isNone_iff_eq_none] at h
      rw [nAvrLA_eq]
      apply List.sum_eq_zero
      intro x hx
      obtain ⟨p, hp, rfl⟩ := List.mem_map.1 hx
      simp [nAvr, getLA, h p hp]
  refine ⟨G, U, lin, fun _ _ => rfl, fun t t0 => ?_⟩
  ext k l
  rw [Matrix.diagonal_mul, Matrix.mul_diagonal]
  simp only [G, boxMat, Matrix.of_apply]
  rw [mul_comm, ← List.sum_map_mul_right, ← List.sum_map_mul_right]
  congr 1
  refine List.map_congr_left fun p hp => ?_
  exact extend_picture w (hc.axes p hp) (V p) (t - t0) _ _

/-- **C83.** A composite system in the Master equation, component by component: whatever the pictures of the free subsystems, the physical density operator follows the Master equation with the sum of
the Hamiltonians of the components, and all the jumps of the components, each extended to the whole space. The order of storage and whether the superoperators are implemented do not matter. -/
theorem comp_master (c : Comp) (hc : c.Ok) (hr : c.frees.length = c.r) (w : ℕ → ℤ → ℂ) (V : Part → Idx → Idx → ℂ)
    (hE : ∀ t t0 idx p, c.frees[idx]? = some p → ExOK c.lb c.ub t t0 { p with axes := [idx] } (fun s => Complex.exp (-(w idx (s.getD 0 0) * (t - t0 : ℝ)))))
    (hA : ∀ p ∈ c.acts, p.ex = none)
    (hH : ∀ t t0, ∀ p ∈ c.parts, HaOK c.lb c.ub t t0 p (inPicture w p.axes (V p) (t - t0)))
    (implemented : ℕ → Bool) (J : ℕ → ℕ → Idx → Idx → ℂ) (hJ : JumpsOK c implemented w J) (hsz : (c.parts.map (nAvr .li)).sum < 2 ^ 64) (e : Enum c.lb c.ub n) :
    FollowsMaster (c.toSys implemented e) (boxMat e (c.hamiltonian w V)) ((c.jumps J).map (boxMat e)) := by
  let W : Fin n → ℂ := fun k => ∑ a ∈ Finset.range c.r, w a ((e k : Idx).getD a 0)
  let Js : ℕ → Matrix (Fin n) (Fin n) ℂ := fun m => boxMat e ((c.jumps J).getD m 0)
  have hspec : ∀ m < c.nAvrLA .li, ∃ k j p li, c.parts[k]? = some p ∧ p.li = some li ∧ j < li.nAvr ∧ m = offset (c.parts.map (nAvr .li)) k + j ∧ (c.jumps J).getD m 0 = extend c.r p.axes (J k j) := by
    intro m hm
    rw [← jumps_length c J] at hm
    obtain ⟨k, j, p, li, h1, h2, h3, h4, h5⟩ := jumps_spec c J m _ (List.getElem?_eq_getElem hm)
    exact ⟨k, j, p, li, h1, h2, h3, h4, by rw [List.getD_eq_getElem?_getD, List.getElem?_eq_getElem hm]; exact h5⟩
  obtain ⟨G, U, lin, hU, hG⟩ := comp_linear c hc hr w V hE hA hH implemented J hJ.jump hJ.super hsz e
  have hlist : (List.range (c.nAvrLA .li)).map Js = (c.jumps J).map (boxMat e) := by
    rw [← jumps_length c J]
    apply List.ext_getElem
    · simp
    · intro k h1 h2
      have : k < (c.jumps J).length := by simpa using h2
      simp [Js, List.getElem?_eq_getElem this]
  have hham : boxMat e (c.hamiltonian w V) = boxMat e (fun i j => (c.parts.map fun p => extend c.r p.axes (V p) i j).sum) - Matrix.diagonal W := by
    rw [← boxMat_diagonal e fun i => ∑ a ∈ Finset.range c.r, w a (i.getD a 0)]
    rfl
  rw [← hlist, hham]
  refine Master.picture_master (c.toSys implemented e) W _ G U (c.nAvrLA .li) Js lin hU hG (fun m hm t t0 => ?_)
  · obtain ⟨k, j, p, li, h1, h2, h3, h4, h5⟩ := hspec m hm
    obtain ⟨z, hz1, hz2⟩ := hJ.phase k p li h1 h2 j h3 (t - t0)
    refine ⟨z, hz1, ?_⟩
    have g := hc.geo (List.mem_of_getElem? h1)
    have hU' : U t t0 = Matrix.diagonal fun k => Complex.exp (-(W k * (t - t0 : ℝ))) := hU t t0
    ext x y
    rw [hU', Matrix.diagonal_mul, Matrix.smul_apply, Matrix.mul_diagonal, smul_eq_mul]
    simp only [Js, boxMat, Matrix.of_apply, h5]
    unfold extend
    split_ifs with hag
    · have hs := phase_split w g.hV hag
      have hzz := hz2 _ _ (g.mem_slice.1 (g.split (e x).2).1) (g.mem_slice.1 (g.split (e y).2).1)
      set R : ℂ := (∑ a ∈ Finset.range c.r, w a ((e x : Idx).getD a 0)) - phaseOf w p.axes (coords p.axes (e x)) with hR
      have hx : W x = R + phaseOf w p.axes (coords p.axes (e x)) := by simp only [W, hR]; ring
      have hy : W y = R + phaseOf w p.axes (coords p.axes (e y)) := by rw [hs]; simp only [W]; ring
      have ex : Complex.exp (-(W x * (t - t0 : ℝ))) = Complex.exp (-(R * (t - t0 : ℝ))) * Complex.exp (-(phaseOf w p.axes (coords p.axes (e x)) * (t - t0 : ℝ))) := by
        rw [hx, ← Complex.exp_add]; congr 1; ring
      have ey : Complex.exp (-(W y * (t - t0 : ℝ))) = Complex.exp (-(R * (t - t0 : ℝ))) * Complex.exp (-(phaseOf w p.axes (coords p.axes (e y)) * (t - t0 : ℝ))) := by
        rw [hy, ← Complex.exp_add]; congr 1; ring
      rw [ex, ey]
      linear_combination Complex.exp (-(R * (t - t0 : ℝ))) * hzz
    · simp

end CppQED.Composite
