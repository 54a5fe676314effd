import Verif.Props.Composite

/-!
# Properties C31–C33, C67, C68: dynamics and construction of composite systems
-/

namespace CppQED.Composite
open CppQED.MII (Idx)
open CppQED.Slice CppQED.Spec CppQED.PTrace
open ComplexConjugate

/-! ## Extension of operators to the whole space -/

theorem agreeOff_iff {r : ℕ} {V : List ℕ} (i j : Idx) : AgreeOff r V i j ↔ filterOut r V i = filterOut r V j := by
  constructor
  · intro h
    unfold filterOut
    apply List.map_congr_left
    intro a ha
    exact h a (mem_negated.1 ha).1 (mem_negated.1 ha).2
  · intro h a ha haV
    unfold filterOut at h
    exact List.map_inj_left.1 h a (mem_negated.2 ⟨ha, haV⟩)

/-- An action on the slices through an index is the action of the operator extended to the whole space. -/
theorem extension_eq {r : ℕ} {V : List ℕ} {lb ub : Idx} (g : Geo r V lb ub) (A : Idx → Idx → ℂ) (psi : Arr ℂ) (i : Idx) (hi : InBox lb ub i) :
    matAction (sliceBound V lb) (sliceBound V ub) A (fun s => psi (replace V s i)) (coords V i) = matAction lb ub (extend r V A) psi i := by
  have hi' := g.mem_full.2 hi
  obtain ⟨h1, h2, h3, h4⟩ := g.split hi'
  unfold matAction
  rw [g.fubini, Finset.sum_eq_single_of_mem (filterOut r V i) h2]
  · refine Finset.sum_congr rfl fun s hs => ?_
    obtain ⟨a1, a2, a3⟩ := g.addr h2 hs
    have hsl : s.length = V.length := by rw [(g.mem_slice.1 hs).1]; simp [sliceBound]
    rw [extend, if_pos ((agreeOff_iff _ _).2 a3.symm), a2, sliceAddr_eq_replace r V i s g.hV h4 hsl]
  · intro d hd hne
    refine Finset.sum_eq_zero fun s hs => ?_
    obtain ⟨a1, a2, a3⟩ := g.addr hd hs
    rw [extend, if_neg, zero_mul]
    intro h
    rw [agreeOff_iff, a3] at h
    exact hne h.symm

/-! ## C31 -/

/-- The Hamiltonian part of a component adds the action of the matrix `H` on its own space. -/
def HaOK (lb ub : Idx) (t t0 : ℝ) (p : Part) (H : Idx → Idx → ℂ) : Prop :=
  match p.ha with
  | none => ∀ s s', InBox (sliceBound p.axes lb) (sliceBound p.axes ub) s → InBox (sliceBound p.axes lb) (sliceBound p.axes ub) s' → H s s' = 0
  | some ha => ∀ psi dpsidt s, InBox (sliceBound p.axes lb) (sliceBound p.axes ub) s → ha t t0 psi dpsidt s = dpsidt s + matAction (sliceBound p.axes lb) (sliceBound p.axes ub) H psi s

theorem contribution_eq {r : ℕ} {lb ub : Idx} (t t0 : ℝ) (p : Part) (g : Geo r p.axes lb ub) (H : Idx → Idx → ℂ) (h : HaOK lb ub t t0 p H) (psi dpsidt : Arr ℂ) (i : Idx) (hi : InBox lb ub i) :
    contribution r lb ub t t0 psi dpsidt p i = dpsidt i + matAction lb ub (extend r p.axes H) psi i := by
  unfold HaOK at h
  unfold contribution
  cases hp : p.ha with
  | none =>
    rw [hp] at h
    simp only at h ⊢
    have : matAction lb ub (extend r p.axes H) psi i = 0 := by
      unfold matAction
      refine Finset.sum_eq_zero fun j hj => ?_
      rw [extend]
      split_ifs
      · rw [h _ _ (g.mem_slice.1 (g.split (g.mem_full.2 hi)).1) (g.mem_slice.1 (g.split hj).1), zero_mul]
      · rw [zero_mul]
    rw [this, add_zero]
  | some ha =>
    rw [hp] at h
    simp only at h ⊢
    have hil : i.length = r := by rw [hi.1, g.hl]
    have hsb : (sliceBound p.axes ub).length = (sliceBound p.axes lb).length := by simp [sliceBound]
    obtain ⟨hsl, -, h3, -⟩ := g.split (g.mem_full.2 hi)
    rw [(forEachSlice₂_slices g (ha t t0) (fun u a a' haa s hs => by beta_reduce; rw [h _ _ _ hs, h _ _ _ hs, matAction_local _ _ hsb H a a' haa s hs])
      (fun u a a' haa s hs => by beta_reduce; rw [h _ _ _ hs, h _ _ _ hs, haa s hs]) psi dpsidt i).1 hi, h _ _ _ (g.mem_slice.1 hsl), extension_eq g H psi i hi]
    congr 1
    have hcl : (coords p.axes i).length = p.axes.length := by simp [coords]
    rw [← sliceAddr_eq_replace r p.axes i _ g.hV hil hcl, h3]

/-- **C31.** `addContribution` of a composite adds to what has been accumulated in `dpsidt` the sum of the Hamiltonians of the components, each extended to the whole space, acting on
`psi`. -/
theorem comp_addContribution (c : Comp) (hc : c.Ok) (t t0 : ℝ) (H : Part → Idx → Idx → ℂ) (hH : ∀ p ∈ c.parts, HaOK c.lb c.ub t t0 p (H p)) (psi dpsidt : Arr ℂ) (i : Idx)
    (hi : InBox c.lb c.ub i) :
    c.addContribution t t0 psi dpsidt i = dpsidt i + matAction c.lb c.ub (fun i j => (c.parts.map fun p => extend c.r p.axes (H p) i j).sum) psi i := by
  have key : ∀ (parts : List Part), (∀ p ∈ parts, Geo c.r p.axes c.lb c.ub) → (∀ p ∈ parts, HaOK c.lb c.ub t t0 p (H p)) → ∀ dpsidt : Arr ℂ,
      parts.foldl (contribution c.r c.lb c.ub t t0 psi) dpsidt i = dpsidt i + (parts.map fun p => matAction c.lb c.ub (extend c.r p.axes (H p)) psi i).sum := by
    intro parts
    induction parts with
    | nil => intro _ _ dpsidt; simp
    | cons p parts ih =>
      intro h1 h2 dpsidt
      rw [List.foldl_cons, ih (fun q hq => h1 q (by simp [hq])) (fun q hq => h2 q (by simp [hq])),
        contribution_eq t t0 p (h1 p (by simp)) (H p) (h2 p (by simp)) psi dpsidt i hi, List.map_cons, List.sum_cons, add_assoc]
  unfold Comp.addContribution
  rw [key c.parts (fun p hp => hc.geo hp) hH dpsidt]
  congr 1
  generalize c.parts = parts
  unfold matAction
  induction parts with
  | nil => simp
  | cons p parts ih => simp only [List.map_cons, List.sum_cons, add_mul, Finset.sum_add_distrib, ih]

/-- **C31.** The result does not depend on the order in which the components are given. -/
theorem comp_addContribution_perm (c c' : Comp) (hc : c.Ok) (hc' : c'.Ok) (hr : c'.r = c.r) (hlb : c'.lb = c.lb) (hub : c'.ub = c.ub) (hperm : c.parts.Perm c'.parts) (t t0 : ℝ)
    (H : Part → Idx → Idx → ℂ) (hH : ∀ p ∈ c.parts, HaOK c.lb c.ub t t0 p (H p)) (psi dpsidt : Arr ℂ) (i : Idx) (hi : InBox c.lb c.ub i) :
    c'.addContribution t t0 psi dpsidt i = c.addContribution t t0 psi dpsidt i := by
  rw [comp_addContribution c hc t t0 H hH psi dpsidt i hi, comp_addContribution c' hc' t t0 H (fun p hp => by rw [hlb, hub]; exact hH p (hperm.mem_iff.2 hp)) psi dpsidt i
    (by rw [hlb, hub]; exact hi), hlb, hub, hr]
  have e : (fun i j => (c'.parts.map fun p => extend c.r p.axes (H p) i j).sum) = fun i j => (c.parts.map fun p => extend c.r p.axes (H p) i j).sum := by
    funext i j; exact ((hperm.map _).sum_eq).symm
  rw [e]

/-- **C31**, for a binary system. -/
theorem bin_addContribution (b : Bin) (hb : ValidBounds b.lb b.ub) (hl : b.lb.length = 2) (t t0 : ℝ) (H0 H1 H01 : Idx → Idx → ℂ)
    (h0 : HaOK b.lb b.ub t t0 { b.free0 with axes := [0] } H0) (h1 : HaOK b.lb b.ub t t0 { b.free1 with axes := [1] } H1)
    (h01 : match b.ia.ha with | none => ∀ s s', InBox b.lb b.ub s → InBox b.lb b.ub s' → H01 s s' = 0 | some ha => ∀ psi dpsidt s, InBox b.lb b.ub s → ha t t0 psi dpsidt s = dpsidt s + matAction b.lb b.ub H01 psi s)
    (psi dpsidt : Arr ℂ) (i : Idx) (hi : InBox b.lb b.ub i) :
    b.addContribution t t0 psi dpsidt i = dpsidt i + matAction b.lb b.ub (fun i j => extend 2 [0] H0 i j + extend 2 [1] H1 i j + H01 i j) psi i := by
  have e0 := fun d => contribution_eq t t0 { b.free0 with axes := [0] } ⟨valid0, hb, hl⟩ H0 h0 psi d i hi
  have e1 := fun d => contribution_eq t t0 { b.free1 with axes := [1] } ⟨valid1, hb, hl⟩ H1 h1 psi d i hi
  have es : matAction b.lb b.ub (fun i j => extend 2 [0] H0 i j + extend 2 [1] H1 i j + H01 i j) psi i =
      matAction b.lb b.ub (extend 2 [0] H0) psi i + matAction b.lb b.ub (extend 2 [1] H1) psi i + matAction b.lb b.ub H01 psi i := by
    unfold matAction
    simp only [add_mul, Finset.sum_add_distrib]
  unfold Bin.addContribution
  simp only
  rw [es]
  cases hia : b.ia.ha with
  | none =>
    rw [hia] at h01
    simp only at h01 ⊢
    have hz : matAction b.lb b.ub H01 psi i = 0 := by
      unfold matAction
      exact Finset.sum_eq_zero fun j hj => by rw [h01 i j hi (((⟨valid0, hb, hl⟩ : Geo 2 [0] b.lb b.ub)).mem_full.1 hj), zero_mul]
    rw [e1, e0, hz]
    ring
  | some ha =>
    rw [hia] at h01
    simp only at h01 ⊢
    rw [h01 _ _ _ hi, e1, e0]
    ring

/-! ## C68: exact propagation -/

/-- The exact propagation of a component is the multiplication with the diagonal `D` (as for all descendants of `FreeExact`). -/
def ExOK (lb ub : Idx) (t t0 : ℝ) (p : Part) (D : Idx → ℂ) : Prop :=
  match p.ex with
  | none => ∀ s, InBox (sliceBound p.axes lb) (sliceBound p.axes ub) s → D s = 1
  | some ex => ∀ psi s, InBox (sliceBound p.axes lb) (sliceBound p.axes ub) s → ex t t0 psi s = psi s * D s

theorem propagation_eq {r : ℕ} {lb ub : Idx} (t t0 : ℝ) (p : Part) (g : Geo r p.axes lb ub) (D : Idx → ℂ) (hp : ExOK lb ub t t0 p D) (psi : Arr ℂ) (i : Idx) (hi : InBox lb ub i) :
    propagation r lb ub t t0 psi p i = psi i * D (coords p.axes i) := by
  unfold ExOK at hp
  unfold propagation
  cases hx : p.ex with
  | none => rw [hx] at hp; simp only at hp ⊢; rw [hp _ (g.mem_slice.1 (g.split (g.mem_full.2 hi)).1), mul_one]
  | some ex =>
    rw [hx] at hp
    simp only at hp ⊢
    have hil : i.length = r := by rw [hi.1, g.hl]
    obtain ⟨hsl, -, h3, -⟩ := g.split (g.mem_full.2 hi)
    rw [(forEachSlice_slices g (ex t t0) (fun a a' haa s hs => by rw [hp a s hs, hp a' s hs, haa s hs]) psi i).1 hi, hp _ _ (g.mem_slice.1 hsl)]
    congr 1
    have hcl : (coords p.axes i).length = p.axes.length := by simp [coords]
    rw [← sliceAddr_eq_replace r p.axes i _ g.hV hil hcl, h3]

/-- **C68.** The exact propagation of a composite multiplies every amplitude with the product of the propagators of the components, each taken at the quantum numbers of the component. -/
theorem comp_actWithU (c : Comp) (hc : c.Ok) (t t0 : ℝ) (D : Part → Idx → ℂ) (hD : ∀ p ∈ c.parts, ExOK c.lb c.ub t t0 p (D p)) (psi : Arr ℂ) (i : Idx) (hi : InBox c.lb c.ub i) :
    c.actWithU t t0 psi i = psi i * (c.parts.map fun p => D p (coords p.axes i)).prod := by
  have key : ∀ (parts : List Part), (∀ p ∈ parts, Geo c.r p.axes c.lb c.ub) → (∀ p ∈ parts, ExOK c.lb c.ub t t0 p (D p)) → ∀ psi : Arr ℂ,
      parts.foldl (propagation c.r c.lb c.ub t t0) psi i = psi i * (parts.map fun p => D p (coords p.axes i)).prod := by
    intro parts
    induction parts with
    | nil => intro _ _ psi; simp
    | cons p parts ih =>
      intro h1 h2 psi
      rw [List.foldl_cons, ih (fun q hq => h1 q (by simp [hq])) (fun q hq => h2 q (by simp [hq])), List.map_cons, List.prod_cons, ← mul_assoc]
      congr 1
      exact propagation_eq t t0 p (h1 p (by simp)) (D p) (h2 p (by simp)) psi i hi
  exact key c.parts (fun p hp => hc.geo hp) hD psi

/-- **C68**, for a binary system. -/
theorem bin_actWithU (b : Bin) (hb : ValidBounds b.lb b.ub) (hl : b.lb.length = 2) (t t0 : ℝ) (D0 D1 D01 : Idx → ℂ) (h0 : ExOK b.lb b.ub t t0 { b.free0 with axes := [0] } D0)
    (h1 : ExOK b.lb b.ub t t0 { b.free1 with axes := [1] } D1)
    (h01 : match b.ia.ex with | none => ∀ s, InBox b.lb b.ub s → D01 s = 1 | some ex => ∀ psi s, InBox b.lb b.ub s → ex t t0 psi s = psi s * D01 s) (psi : Arr ℂ) (i : Idx) (hi : InBox b.lb b.ub i) :
    b.actWithU t t0 psi i = psi i * (D0 [i.getD 0 0] * D1 [i.getD 1 0] * D01 i) := by
  have e0 := fun q => propagation_eq t t0 { b.free0 with axes := [0] } ⟨valid0, hb, hl⟩ D0 h0 q i hi
  have e1 := fun q => propagation_eq t t0 { b.free1 with axes := [1] } ⟨valid1, hb, hl⟩ D1 h1 q i hi
  unfold Bin.actWithU
  simp only
  cases hia : b.ia.ex with
  | none =>
    rw [hia] at h01
    simp only at h01 ⊢
    rw [e1, e0, h01 _ hi]
    simp only [coords, List.map_cons, List.map_nil]
    ring
  | some ex =>
    rw [hia] at h01
    simp only at h01 ⊢
    rw [h01 _ _ hi, e1, e0]
    simp only [coords, List.map_cons, List.map_nil]
    ring

/-- **C68.** A binary system is applicable in the master equation iff all of its components are. -/
theorem bin_applicableInMaster (b : Bin) : b.applicableInMaster = true ↔
    Composite.applicableInMaster b.free0 = true ∧ Composite.applicableInMaster b.free1 = true ∧ Composite.applicableInMaster b.ia = true := by
  simp [Bin.applicableInMaster, and_assoc]

/-- **C68.** A composite is applicable in the master equation iff all of its components are. -/
theorem comp_applicableInMaster (c : Comp) : c.applicableInMaster = true ↔ ∀ p ∈ c.parts, Composite.applicableInMaster p = true := by
  have key : ∀ (L : List Part) (b : Bool), L.foldl (fun s act => s && Composite.applicableInMaster act) b = true ↔ b = true ∧ ∀ p ∈ L, Composite.applicableInMaster p = true := by
    intro L
    induction L with
    | nil => intro b; simp
    | cons p L ih => intro b; rw [List.foldl_cons, ih]; simp [and_assoc]
  unfold Comp.applicableInMaster Comp.parts
  simp only [List.mem_append]
  by_cases h : (c.frees.mapIdx fun idx p => { p with axes := [idx] }).foldl (fun res p => res && Composite.applicableInMaster p) true = true
  · simp only [h, if_true, key]
    have h' := (key _ _).1 h
    constructor
    · rintro ⟨-, h2⟩ p (hp | hp)
      · exact h'.2 p hp
      · exact h2 p hp
    · intro h2
      exact ⟨trivial, fun p hp => h2 p (Or.inr hp)⟩
  · simp only [h, if_false, Bool.false_eq_true]
    rw [key] at h
    simp only [true_and] at h
    constructor
    · intro h3; cases h3
    · intro h3; exact absurd (fun p hp => h3 p (Or.inl hp)) h

/-! ## C28 in terms of operators -/

/-- **C28.** If the jump of a component is the action of the matrix `J`, that of the composite is the action of `J ⊗ 1`. -/
theorem comp_jump_operator (c : Comp) (hc : c.Ok) (t : ℝ) (psi : Arr ℂ) (k j : ℕ) (p : Part) (li : Li) (hk : c.parts[k]? = some p) (hli : p.li = some li) (hj : j < li.nAvr)
    (hsz : (c.parts.map (nAvr .li)).sum < 2 ^ 64) (J : Idx → Idx → ℂ) (hJ : ∀ psi s, li.actWithJ t j psi s = matAction (sliceBound p.axes c.lb) (sliceBound p.axes c.ub) J psi s)
    (i : Idx) (hi : InBox c.lb c.ub i) :
    c.actWithJ t psi (offset (c.parts.map (nAvr .li)) k + j) i = matAction c.lb c.ub (extend c.r p.axes J) psi i := by
  have hsb : (sliceBound p.axes c.ub).length = (sliceBound p.axes c.lb).length := by simp [sliceBound]
  rw [comp_actWithJ c hc t psi k j p li hk hli hj hsz (fun a a' haa s hs => by rw [hJ, hJ, matAction_local _ _ hsb J a a' haa s hs]) i hi, hJ,
    extension_eq (hc.geo (List.mem_of_getElem? hk)) J psi i hi]

theorem coords_extend (r : ℕ) (V : List ℕ) (hV : ∀ a ∈ V, a < r) (i i' : Idx) (hi : i.length = r) : coords (extendVector r V) (i ++ i') = coords V i ++ coords V i' := by
  unfold coords extendVector
  rw [List.map_append, List.map_map]
  congr 1
  · apply List.map_congr_left
    intro a ha
    have := hV a ha
    rw [List.getD_eq_getElem?_getD, List.getD_eq_getElem?_getD, List.getElem?_append_left (by omega)]
  · apply List.map_congr_left
    intro a ha
    simp only [Function.comp]
    rw [List.getD_eq_getElem?_getD, List.getD_eq_getElem?_getD, List.getElem?_append_right (by omega), hi, Nat.add_sub_cancel]

theorem replace_extend (r : ℕ) (V : List ℕ) (hV : ValidAxes r V) (i i' s s' : Idx) (hi : i.length = r) (hi' : i'.length = r) (hs : s.length = V.length) :
    replace (extendVector r V) (s ++ s') (i ++ i') = replace V s i ++ replace V s' i' := by
  have hlen : ∀ (V : List ℕ) (s i : Idx), (replace V s i).length = i.length := fun V s i => by simp [replace]
  apply MII.ext_idx (n := r + r)
  · rw [hlen, List.length_append, hi, hi']
  · rw [List.length_append, hlen, hlen, hi, hi']
  · intro a ha
    have hmem : ∀ a, a ∈ extendVector r V ↔ a ∈ V ∨ ∃ b ∈ V, a = b + r := by
      intro a; unfold extendVector; rw [List.mem_append, List.mem_map]; simp [eq_comm]
    rw [replace_getD _ _ _ _ (by rw [List.length_append]; omega)]
    by_cases h : a < r
    · have hm : a ∈ extendVector r V ↔ a ∈ V := by
        rw [hmem]
        constructor
        · rintro (h1 | ⟨b, _, hb⟩)
          · exact h1
          · omega
        · exact Or.inl
      have hR : (replace V s i ++ replace V s' i').getD a 0 = (replace V s i).getD a 0 := by
        rw [List.getD_eq_getElem?_getD, List.getD_eq_getElem?_getD, List.getElem?_append_left (by rw [hlen]; omega)]
      rw [hR, replace_getD V s i a (by omega)]
      by_cases hV' : a ∈ V
      · rw [if_pos (hm.2 hV'), if_pos hV']
        unfold extendVector
        rw [List.idxOf_append_of_mem hV']
        have := List.idxOf_lt_length_iff.2 hV'
        rw [List.getD_eq_getElem?_getD, List.getD_eq_getElem?_getD, List.getElem?_append_left (by omega)]
      · rw [if_neg (fun h => hV' (hm.1 h)), if_neg hV', List.getD_eq_getElem?_getD, List.getD_eq_getElem?_getD, List.getElem?_append_left (by omega)]
    · obtain ⟨b, rfl⟩ : ∃ b, a = b + r := ⟨a - r, by omega⟩
      have hbV : b + r ∉ V := fun h => by have := hV.2.2 _ h; omega
      have hm : b + r ∈ extendVector r V ↔ b ∈ V := by
        rw [hmem]
        constructor
        · rintro (h1 | ⟨c, hc, hb⟩)
          · exact absurd h1 hbV
          · have : b = c := by omega
            rwa [this]
        · exact fun h => Or.inr ⟨b, h, rfl⟩
      have hR : (replace V s i ++ replace V s' i').getD (b + r) 0 = (replace V s' i').getD b 0 := by
        rw [List.getD_eq_getElem?_getD, List.getD_eq_getElem?_getD, List.getElem?_append_right (by rw [hlen]; omega), hlen, hi, Nat.add_sub_cancel]
      rw [hR, replace_getD V s' i' b (by omega)]
      by_cases hV' : b ∈ V
      · rw [if_pos (hm.2 hV'), if_pos hV']
        unfold extendVector
        rw [List.idxOf_append_of_notMem hbV]
        have e : (V.map (· + r)).idxOf (b + r) = V.idxOf b := by
          have hinj : Function.Injective (· + r : ℕ → ℕ) := add_left_injective r
          clear hm hR hbV hV' hs hV hmem ha h
          induction V with
          | nil => rfl
          | cons c V ih =>
            rw [List.map_cons, List.idxOf_cons, List.idxOf_cons, ih]
            have : (c + r == b + r) = (c == b) := by
              rw [Bool.eq_iff_iff, beq_iff_eq, beq_iff_eq]; omega
            rw [this]
        rw [e, List.getD_eq_getElem?_getD, List.getD_eq_getElem?_getD, List.getElem?_append_right (by omega), hs]
        congr 2
        omega
      · rw [if_neg (fun h => hV' (hm.1 h)), if_neg hV', List.getD_eq_getElem?_getD, List.getD_eq_getElem?_getD, List.getElem?_append_right (by omega), hi, Nat.add_sub_cancel]

/-- Is the superoperator of a component the addition of `J ρ J†`? -/
def SuperOK (lb ub : Idx) (t : ℝ) (V : List ℕ) (li : Li) (j : ℕ) (J : Idx → Idx → ℂ) : Prop :=
  (∀ rho drhodt s s', s ∈ boxFinset (sliceBound V lb) (sliceBound V ub) → s' ∈ boxFinset (sliceBound V lb) (sliceBound V ub) →
    li.actWithSuperoperator t j rho drhodt (s ++ s') = drhodt (s ++ s') +
      ∑ u ∈ boxFinset (sliceBound V lb) (sliceBound V ub), ∑ u' ∈ boxFinset (sliceBound V lb) (sliceBound V ub), J s u * rho (u ++ u') * conj (J s' u'))

theorem inBox_append (lb ub i i' : Idx) (hlen : ub.length = lb.length) (hi : i.length = lb.length) : InBox (lb ++ lb) (ub ++ ub) (i ++ i') ↔ InBox lb ub i ∧ InBox lb ub i' := by
  unfold InBox
  constructor
  · rintro ⟨h1, h2⟩
    rw [List.length_append, List.length_append] at h1
    refine ⟨⟨hi, fun j hj => ?_⟩, ⟨by omega, fun j hj => ?_⟩⟩
    · have := h2 j (by rw [List.length_append]; omega)
      simpa only [List.getD_eq_getElem?_getD, List.getElem?_append_left hj, List.getElem?_append_left (hi.symm ▸ hj), List.getElem?_append_left (hlen.symm ▸ hj)] using this
    · have := h2 (lb.length + j) (by rw [List.length_append]; omega)
      have a1 : lb.length ≤ lb.length + j := by omega
      have a2 : i.length ≤ lb.length + j := by omega
      have a3 : ub.length ≤ lb.length + j := by omega
      simpa only [List.getD_eq_getElem?_getD, List.getElem?_append_right a1, List.getElem?_append_right a2, List.getElem?_append_right a3, hi, hlen, Nat.add_sub_cancel_left] using this
  · rintro ⟨⟨_, h2⟩, ⟨h3, h4⟩⟩
    refine ⟨by rw [List.length_append, List.length_append]; omega, fun j hj => ?_⟩
    rw [List.length_append] at hj
    by_cases h : j < lb.length
    · have := h2 j h
      simpa only [List.getD_eq_getElem?_getD, List.getElem?_append_left h, List.getElem?_append_left (hi.symm ▸ h), List.getElem?_append_left (hlen.symm ▸ h)] using this
    · have := h4 (j - lb.length) (by omega)
      have a1 : lb.length ≤ j := by omega
      have a2 : i.length ≤ j := by omega
      have a3 : ub.length ≤ j := by omega
      simpa only [List.getD_eq_getElem?_getD, List.getElem?_append_right a1, List.getElem?_append_right a2, List.getElem?_append_right a3, hi, hlen] using this

/-- **C28.** If the superoperator of a component is the addition of `J ρ J†`, that of the composite is the addition of `(J ⊗ 1) ρ (J ⊗ 1)†`. -/
theorem comp_superoperator_operator (c : Comp) (hc : c.Ok) (t : ℝ) (rho drhodt : Arr ℂ) (k j : ℕ) (p : Part) (li : Li) (hk : c.parts[k]? = some p) (hli : p.li = some li)
    (hj : j < li.nAvr) (hsz : (c.parts.map (nAvr .li)).sum < 2 ^ 64) (J : Idx → Idx → ℂ) (hJ : SuperOK c.lb c.ub t p.axes li j J) (i i' : Idx) (hi : InBox c.lb c.ub i) (hi' : InBox c.lb c.ub i') :
    c.actWithSuperoperator t rho drhodt (offset (c.parts.map (nAvr .li)) k + j) (i ++ i') = drhodt (i ++ i') +
      ∑ u ∈ boxFinset c.lb c.ub, ∑ u' ∈ boxFinset c.lb c.ub, extend c.r p.axes J i u * rho (u ++ u') * conj (extend c.r p.axes J i' u') := by
  have g := hc.geo (List.mem_of_getElem? hk)
  have hbound : ∀ b : Idx, b.length = c.r → sliceBound (extendVector c.r p.axes) (b ++ b) = sliceBound p.axes b ++ sliceBound p.axes b := fun b hb =>
    coords_extend c.r p.axes g.hV.2.2 b b hb
  have hub : c.ub.length = c.r := by rw [g.hb.2.1, g.hl]
  have hsl : (sliceBound p.axes c.ub).length = (sliceBound p.axes c.lb).length := by simp [sliceBound]
  -- an index of the slice is a pair of indices
  have hsplit : ∀ s, InBox (sliceBound p.axes c.lb ++ sliceBound p.axes c.lb) (sliceBound p.axes c.ub ++ sliceBound p.axes c.ub) s →
      ∃ x x', s = x ++ x' ∧ x ∈ boxFinset (sliceBound p.axes c.lb) (sliceBound p.axes c.ub) ∧ x' ∈ boxFinset (sliceBound p.axes c.lb) (sliceBound p.axes c.ub) := by
    intro s hs
    have hl := hs.1
    rw [List.length_append] at hl
    refine ⟨s.take (sliceBound p.axes c.lb).length, s.drop (sliceBound p.axes c.lb).length, (List.take_append_drop _ s).symm, ?_⟩
    rw [← List.take_append_drop (sliceBound p.axes c.lb).length s] at hs
    have := (inBox_append _ _ _ _ hsl (by rw [List.length_take]; omega)).1 hs
    exact ⟨g.mem_slice.2 this.1, g.mem_slice.2 this.2⟩
  have happ : ∀ x x', x ∈ boxFinset (sliceBound p.axes c.lb) (sliceBound p.axes c.ub) → x' ∈ boxFinset (sliceBound p.axes c.lb) (sliceBound p.axes c.ub) →
      InBox (sliceBound p.axes c.lb ++ sliceBound p.axes c.lb) (sliceBound p.axes c.ub ++ sliceBound p.axes c.ub) (x ++ x') := by
    intro x x' hx hx'
    exact (inBox_append _ _ _ _ hsl (g.mem_slice.1 hx).1).2 ⟨g.mem_slice.1 hx, g.mem_slice.1 hx'⟩
  obtain ⟨hci, hfi, hai, hil⟩ := g.split (g.mem_full.2 hi)
  obtain ⟨hci', hfi', hai', hil'⟩ := g.split (g.mem_full.2 hi')
  rw [comp_actWithSuperoperator c hc t rho drhodt k j p li hk hli hj hsz ?_ ?_ (i ++ i') ((inBox_append _ _ _ _ g.hb.2.1 hi.1).2 ⟨hi, hi'⟩),
    coords_extend c.r p.axes g.hV.2.2 i i' hil, hJ _ _ _ _ hci hci']
  · have hlx : ∀ x ∈ boxFinset (sliceBound p.axes c.lb) (sliceBound p.axes c.ub), x.length = p.axes.length := fun x hx => by rw [(g.mem_slice.1 hx).1]; simp [sliceBound]
    have hrep : ∀ x x', x.length = p.axes.length → replace (extendVector c.r p.axes) (x ++ x') (i ++ i') = replace p.axes x i ++ replace p.axes x' i' :=
      fun x x' hx => replace_extend c.r p.axes g.hV i i' x x' hil hil' hx
    have hcl : ∀ i : Idx, (coords p.axes i).length = p.axes.length := fun i => by simp [coords]
    congr 1
    · show drhodt _ = drhodt _
      rw [hrep _ _ (hcl i), ← sliceAddr_eq_replace c.r p.axes i _ g.hV hil (hcl i), ← sliceAddr_eq_replace c.r p.axes i' _ g.hV hil' (hcl i'), hai, hai']
    · -- extension in both arguments
      have ext1 : ∀ F : Idx → ℂ, ∑ u ∈ boxFinset c.lb c.ub, extend c.r p.axes J i u * F u =
          ∑ x ∈ boxFinset (sliceBound p.axes c.lb) (sliceBound p.axes c.ub), J (coords p.axes i) x * F (replace p.axes x i) := fun F => (extension_eq g J F i hi).symm
      have ext2 : ∀ F : Idx → ℂ, ∑ u ∈ boxFinset c.lb c.ub, F u * conj (extend c.r p.axes J i' u) =
          ∑ x ∈ boxFinset (sliceBound p.axes c.lb) (sliceBound p.axes c.ub), F (replace p.axes x i') * conj (J (coords p.axes i') x) := by
        intro F
        have h := (extension_eq g J (fun u => conj (F u)) i' hi')
        have h := congrArg conj h
        unfold matAction at h
        rw [map_sum, map_sum] at h
        simp only [map_mul, Complex.conj_conj] at h
        rw [Finset.sum_congr rfl (fun u _ => mul_comm (F u) _), ← h]
        exact Finset.sum_congr rfl (fun u _ => mul_comm _ _)
      calc ∑ u ∈ boxFinset (sliceBound p.axes c.lb) (sliceBound p.axes c.ub), ∑ u' ∈ boxFinset (sliceBound p.axes c.lb) (sliceBound p.axes c.ub),
            J (coords p.axes i) u * rho (replace (extendVector c.r p.axes) (u ++ u') (i ++ i')) * conj (J (coords p.axes i') u')
          = ∑ u ∈ boxFinset (sliceBound p.axes c.lb) (sliceBound p.axes c.ub), J (coords p.axes i) u *
              ∑ u' ∈ boxFinset (sliceBound p.axes c.lb) (sliceBound p.axes c.ub), rho (replace p.axes u i ++ replace p.axes u' i') * conj (J (coords p.axes i') u') := by
            refine Finset.sum_congr rfl fun u hu => ?_
            rw [Finset.mul_sum]
            refine Finset.sum_congr rfl fun u' _ => ?_
            rw [hrep u u' (hlx u hu)]; ring
        _ = ∑ u ∈ boxFinset c.lb c.ub, extend c.r p.axes J i u * ∑ u' ∈ boxFinset (sliceBound p.axes c.lb) (sliceBound p.axes c.ub), rho (u ++ replace p.axes u' i') * conj (J (coords p.axes i') u') :=
            (ext1 (fun v => ∑ u' ∈ boxFinset (sliceBound p.axes c.lb) (sliceBound p.axes c.ub), rho (v ++ replace p.axes u' i') * conj (J (coords p.axes i') u'))).symm
        _ = _ := by
            refine Finset.sum_congr rfl fun u _ => ?_
            rw [← ext2 (fun v => rho (u ++ v)), Finset.mul_sum]
            exact Finset.sum_congr rfl fun u' _ => by ring
  · intro u a a' haa s hs
    rw [hbound c.lb g.hl, hbound c.ub hub] at hs haa
    obtain ⟨x, x', rfl, hx, hx'⟩ := hsplit s hs
    beta_reduce
    rw [hJ _ _ _ _ hx hx', hJ _ _ _ _ hx hx']
    congr 1
    refine Finset.sum_congr rfl fun u hu => Finset.sum_congr rfl fun u' hu' => ?_
    rw [haa _ (happ u u' hu hu')]
  · intro u a a' haa s hs
    rw [hbound c.lb g.hl, hbound c.ub hub] at hs haa
    obtain ⟨x, x', rfl, hx, hx'⟩ := hsplit s hs
    beta_reduce
    rw [hJ _ _ _ _ hx hx', hJ _ _ _ _ hx hx', haa _ hs]

end CppQED.Composite
