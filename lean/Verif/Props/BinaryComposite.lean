import Verif.Props.CompositeMaster

/-!
# Binary systems are composites of two subsystems: C84
-/

namespace CppQED.Composite
open CppQED.MII (Idx)
open CppQED.Slice CppQED.Spec CppQED.PTrace
open ComplexConjugate Matrix

/-- The interaction reads and writes only the elements in the bounds of the arrays (as there are no others). -/
structure InBounds (lb ub : Idx) (p : Part) : Prop where
  ha : ∀ f, p.ha = some f → ∀ t t0, (∀ d, Local lb ub fun psi => f t t0 psi d) ∧ ∀ psi, Local lb ub (f t t0 psi)
  ex : ∀ f, p.ex = some f → ∀ t t0, Local lb ub (f t t0)
  jump : ∀ li, p.li = some li → ∀ t j, Local lb ub (li.actWithJ t j)
  super : ∀ li, p.li = some li → ∀ t j, (∀ d, Local (lb ++ lb) (ub ++ ub) fun rho => li.actWithSuperoperator t j rho d) ∧ ∀ rho, Local (lb ++ lb) (ub ++ ub) (li.actWithSuperoperator t j rho)
  average : ∀ tag t m m', (∀ s s', InBox lb ub s → InBox lb ub s' → m s s' = m' s s') → Composite.average tag p t m = Composite.average tag p t m'

section all
variable {r : ℕ} {lb ub : Idx}

theorem coords_all {i : Idx} (h : i.length = r) : coords (List.range r) i = i := by
  unfold coords
  apply List.ext_getElem
  · simp [h]
  · intro k h1 h2
    simp [List.getElem?_eq_getElem h2]

theorem replace_all {s i : Idx} (h : i.length = r) (hs : s.length = r) : replace (List.range r) s i = s := by
  unfold replace
  apply List.ext_getElem
  · simp [h, hs]
  · intro k h1 h2
    have hk : k < r := by omega
    rw [List.getElem_mapIdx, if_pos (List.mem_range.2 hk)]
    have : (List.range r).idxOf k = k := by
      have := (List.nodup_range (n := r)).idxOf_getElem k (by simpa using hk)
      simpa using this
    rw [this]
    simp [List.getElem?_eq_getElem h2]

theorem sliceBound_all (h : lb.length = r) : sliceBound (List.range r) lb = lb := coords_all h

theorem geo_all (hb : ValidBounds lb ub) (hl : lb.length = r) (h0 : 0 < r) : Geo r (List.range r) lb ub :=
  ⟨⟨by simp; omega, List.nodup_range, fun a ha => List.mem_range.1 ha⟩, hb, hl⟩

/-- The only slice along all of the axes is the array itself. -/
theorem forEachSlice_all (hb : ValidBounds lb ub) (hl : lb.length = r) (h0 : 0 < r) (f : Arr ℂ → Arr ℂ) (hf : Local lb ub f) (psi : Arr ℂ) (i : Idx) (hi : InBox lb ub i) :
    forEachSlice r (List.range r) lb ub (slices r (List.range r) lb ub) f psi i = f psi i := by
  have hu : ub.length = r := by rw [hb.2.1, hl]
  have hil : i.length = r := by rw [hi.1, hl]
  rw [(forEachSlice_slices (geo_all hb hl h0) f (by rw [sliceBound_all hl, sliceBound_all hu]; exact hf) psi i).1 hi, coords_all hil]
  exact hf _ _ (fun s hs => by rw [replace_all hil (by rw [hs.1, hl])]) i hi

theorem forEachSlice₂_all (hb : ValidBounds lb ub) (hl : lb.length = r) (h0 : 0 < r) (f : Arr ℂ → Arr ℂ → Arr ℂ) (hf1 : ∀ d, Local lb ub fun x => f x d) (hf2 : ∀ x, Local lb ub (f x))
    (psi dpsidt : Arr ℂ) (i : Idx) (hi : InBox lb ub i) :
    forEachSlice₂ r (List.range r) lb ub (slices r (List.range r) lb ub) f psi dpsidt i = f psi dpsidt i := by
  have hu : ub.length = r := by rw [hb.2.1, hl]
  have hil : i.length = r := by rw [hi.1, hl]
  rw [(forEachSlice₂_slices (geo_all hb hl h0) f (by rw [sliceBound_all hl, sliceBound_all hu]; exact hf1) (by rw [sliceBound_all hl, sliceBound_all hu]; exact hf2) psi dpsidt i).1 hi, coords_all hil]
  exact (hf1 _ _ psi (fun s hs => by rw [replace_all hil (by rw [hs.1, hl])]) i hi).trans (hf2 _ _ _ (fun s hs => by rw [replace_all hil (by rw [hs.1, hl])]) i hi)

end all

/-! ## The dispatch of jumps -/

/-- The numbering of the jumps of a binary system is that of the composite, except if only the first free subsystem and the interaction have jumps. -/
theorem dispatch_eq {β : Type*} (p0 p1 p01 : Part) (act : Part → Li → ℕ → β → β) (h : p1.li.isSome ∨ nAvr .li p0 = 0 ∨ p01.li = none) (hsz : nAvr .li p0 + nAvr .li p1 + nAvr .li p01 < 2 ^ 64)
    (i : ℕ) (hi : i < 2 ^ 64) (x : β) :
    binaryDispatch p0 p1 p01 (act p0) (act p1) (act p01) i x = ([p0, p1, p01].foldl (jumpLambda act) ⟨false, i, x⟩).x := by
  obtain ⟨c1, c2⟩ := jump_dispatch act [p0, p1, p01] i hi x
  obtain ⟨b0, b1, b01, bout⟩ := binary_dispatch p0 p1 p01 (act p0) (act p1) (act p01) x hsz
  have hli : ∀ p : Part, 0 < nAvr .li p → ∃ li, p.li = some li ∧ nAvr .li p = li.nAvr := by
    intro p hp
    cases hl : p.li with
    | none => simp [nAvr, getLA, hl] at hp
    | some li => exact ⟨li, rfl, by simp [nAvr, getLA, hl]⟩
  by_cases h0 : i < nAvr .li p0
  · obtain ⟨li, l1, l2⟩ := hli p0 (by omega)
    rw [b0 li i l1 (by omega), c1 0 p0 li i rfl l1 (by omega) (by simp [offset])]
  · obtain ⟨j, rfl⟩ : ∃ j, i = nAvr .li p0 + j := ⟨i - nAvr .li p0, by omega⟩
    by_cases h1 : j < nAvr .li p1
    · obtain ⟨li, l1, l2⟩ := hli p1 (by omega)
      rw [b1 li j l1 (by omega), c1 1 p1 li j rfl l1 (by omega) (by simp [offset])]
    · obtain ⟨k, rfl⟩ : ∃ k, j = nAvr .li p1 + k := ⟨j - nAvr .li p1, by omega⟩
      rcases (show (p1.li.isSome ∨ nAvr .li p0 = 0) ∨ p01.li = none by tauto) with h | h
      · by_cases h2 : k < nAvr .li p01
        · obtain ⟨li, l1, l2⟩ := hli p01 (by omega)
          rw [← add_assoc, b01 h li k l1 (by omega), add_assoc, c1 2 p01 li k rfl l1 (by omega) (by simp [offset]; omega)]
        · rw [bout h _ hi (by omega), c2 (by simp; omega)]
      · have hn : nAvr .li p01 = 0 := by simp [nAvr, getLA, h]
        rw [c2 (by simp [hn])]
        unfold binaryDispatch
        simp only
        rw [dif_neg (by omega), dif_neg (by rw [sub64_of_le _ _ (by omega) hi]; omega), if_neg (by omega)]

theorem dispatch_congr {β : Type*} (p0 p1 p01 : Part) (a0 a1 a01 a01' : Li → ℕ → β → β) (i : ℕ) (x : β) (R : β → β → Prop) (hR : ∀ y, R y y) (h : ∀ li j y, p01.li = some li → R (a01 li j y) (a01' li j y)) :
    R (binaryDispatch p0 p1 p01 a0 a1 a01 i x) (binaryDispatch p0 p1 p01 a0 a1 a01' i x) := by
  unfold binaryDispatch
  simp only
  split_ifs
  · exact hR _
  · exact hR _
  all_goals cases hl : p01.li with
  | none => exact hR _
  | some li => first | exact h li _ _ hl | exact hR _

/-! ## Equivalence -/

variable (b : Bin) (hb : ValidBounds b.lb b.ub) (hl : b.lb.length = 2) (hI : InBounds b.lb b.ub b.ia)
include hb hl hI

theorem bin_comp_addContribution (t t0 : ℝ) (psi dpsidt : Arr ℂ) (i : Idx) (hi : InBox b.lb b.ub i) : b.addContribution t t0 psi dpsidt i = b.toComp.addContribution t t0 psi dpsidt i := by
  unfold Bin.addContribution
  change _ = contribution 2 b.lb b.ub t t0 psi _ { b.ia with axes := [0, 1] } i
  unfold contribution
  cases h : b.ia.ha with
  | none => rfl
  | some f =>
    simp only
    obtain ⟨h1, h2⟩ := hI.ha f h t t0
    exact (forEachSlice₂_all hb hl (by norm_num) (f t t0) h1 h2 psi _ i hi).symm

theorem bin_comp_actWithU (t t0 : ℝ) (psi : Arr ℂ) (i : Idx) (hi : InBox b.lb b.ub i) : b.actWithU t t0 psi i = b.toComp.actWithU t t0 psi i := by
  unfold Bin.actWithU
  change _ = propagation 2 b.lb b.ub t t0 _ { b.ia with axes := [0, 1] } i
  unfold propagation
  cases h : b.ia.ex with
  | none => rfl
  | some f => exact (forEachSlice_all hb hl (by norm_num) (f t t0) (hI.ex f h t t0) _ i hi).symm

variable (hd : b.free1.li.isSome ∨ nAvr .li b.free0 = 0 ∨ b.ia.li = none) (hsz : b.nAvr .li < 2 ^ 64)
include hd hsz

theorem bin_comp_actWithJ (t : ℝ) (psi : Arr ℂ) (m : ℕ) (hm : m < 2 ^ 64) (i : Idx) (hi : InBox b.lb b.ub i) : b.actWithJ t psi m i = b.toComp.actWithJ t psi m i := by
  have h := dispatch_eq { b.free0 with axes := [0] } { b.free1 with axes := [1] } { b.ia with axes := [0, 1] } (jumpOnSlices 2 b.lb b.ub t) hd hsz m hm psi
  have h' := congrFun h i
  change _ = b.toComp.actWithJ t psi m i at h'
  rw [← h']
  unfold Bin.actWithJ
  refine dispatch_congr b.free0 b.free1 b.ia _ _ _ _ m psi (fun y y' => y i = y' i) (fun _ => rfl) fun li j y hli => ?_
  exact (forEachSlice_all hb hl (by norm_num) (li.actWithJ t j) (hI.jump li hli t j) y i hi).symm

theorem bin_comp_actWithSuperoperator (t : ℝ) (rho drhodt : Arr ℂ) (m : ℕ) (hm : m < 2 ^ 64) (i : Idx) (hi : InBox (b.lb ++ b.lb) (b.ub ++ b.ub) i) :
    b.actWithSuperoperator t rho drhodt m i = b.toComp.actWithSuperoperator t rho drhodt m i := by
  have h := dispatch_eq { b.free0 with axes := [0] } { b.free1 with axes := [1] } { b.ia with axes := [0, 1] } (superoperatorOnSlices 2 b.lb b.ub t rho) hd hsz m hm drhodt
  have h' := congrFun h i
  change _ = b.toComp.actWithSuperoperator t rho drhodt m i at h'
  rw [← h']
  unfold Bin.actWithSuperoperator
  refine dispatch_congr b.free0 b.free1 b.ia _ _ _ _ m drhodt (fun y y' => y i = y' i) (fun _ => rfl) fun li j y hli => ?_
  obtain ⟨h1, h2⟩ := hI.super li hli t j
  refine (forEachSlice₂_all (r := 4) (PTrace.Geo.hb (geo_extend (⟨valid0, hb, hl⟩ : Geo 2 [0] b.lb b.ub))) (by simp [hl]) (by norm_num) (li.actWithSuperoperator t j) h1 h2 rho y i hi).symm

omit hb hl hI hd hsz in
theorem bin_comp_nAvr (tag : Tag) : b.nAvr tag = b.toComp.nAvrLA tag := by
  cases tag <;> simp [Bin.nAvr, Comp.nAvrLA, Comp.parts, Bin.toComp, nAvr, getLA]

omit hI hd hsz hb hl in
theorem bin_comp_applicable : b.applicableInMaster = b.toComp.applicableInMaster := by
  have h : ∀ (p : Part) (V : List ℕ), Composite.applicableInMaster { p with axes := V } = Composite.applicableInMaster p := fun _ _ => rfl
  unfold Bin.applicableInMaster Comp.applicableInMaster Bin.toComp
  simp only [List.mapIdx_cons, List.mapIdx_nil, List.foldl_cons, List.foldl_nil, h, Bool.true_and]
  cases Composite.applicableInMaster b.free0 <;> cases Composite.applicableInMaster b.free1 <;> simp

omit hd hsz in
/-- **C84.** The rates and averages of a binary system are those of the composite of the same components. -/
theorem bin_comp_average (tag : Tag) (t : ℝ) (ldo : Ldo) (h0 : LengthOK tag b.free0) (h1 : LengthOK tag b.free1) (h01 : LengthOK tag b.ia) : b.average tag t ldo = b.toComp.averageLA tag t ldo := by
  have hla : ∀ (p : Part) (V : List ℕ), getLA { p with axes := V } tag = getLA p tag := fun p V => by cases tag <;> rfl
  have hav : ∀ (p : Part) (V : List ℕ), Composite.average tag { p with axes := V } = Composite.average tag p := fun p V => by funext t m; unfold Composite.average; rw [hla]
  have hn : ∀ (p : Part) (V : List ℕ), nAvr tag { p with axes := V } = nAvr tag p := fun p V => by unfold nAvr; rw [hla]
  have hok : b.toComp.Ok := by
    refine ⟨hb, hl, fun p hp => ?_⟩
    simp only [Comp.parts, Bin.toComp, List.mapIdx_cons, List.mapIdx_nil, List.cons_append, List.nil_append, List.mem_cons, List.not_mem_nil, or_false] at hp
    rcases hp with rfl | rfl | rfl
    · exact valid0
    · exact valid1
    · exact ⟨by simp, by simp, by simp [Bin.toComp]⟩
  rw [(bin_average b hb hl tag t ldo h0 h1 h01).1, (comp_average b.toComp hok tag t ldo fun p hp => by
    simp only [Comp.parts, Bin.toComp, List.mapIdx_cons, List.mapIdx_nil, List.cons_append, List.nil_append, List.mem_cons, List.not_mem_nil, or_false] at hp
    rcases hp with rfl | rfl | rfl <;> intro t m <;> rw [hav, hn]
    · exact h0 t m
    · exact h1 t m
    · exact h01 t m).1]
  have key : partAverage tag 2 b.lb b.ub t ldo { b.ia with axes := [0, 1] } = Composite.average tag b.ia t ldo.mat := by
    change Composite.average tag { b.ia with axes := [0, 1] } t (ldo.slice 2 [0, 1] []) = _
    rw [hav]
    refine hI.average tag t _ _ fun s s' hs hs' => ?_
    have g := geo_all (r := 2) hb hl (by norm_num)
    have hadr : ∀ s, InBox b.lb b.ub s → sliceAddr 2 [0, 1] [] s = s := by
      intro s hs
      have hsl : s.length = 2 := by rw [hs.1, hl]
      have h3 := (g.split (g.mem_full.2 hs)).2.2.1
      rw [coords_all hsl] at h3
      exact h3
    cases ldo with
    | sv psi => simp only [Ldo.slice, Ldo.mat, PTrace.svSlice, readSlice, hadr s hs, hadr s' hs']
    | dm rho =>
      simp only [Ldo.slice, Ldo.mat, PTrace.doSlice]
      congr 1
      have h2 : s.length = 2 := by rw [hs.1, hl]
      exact (diagSliceAddr_eq 2 [0, 1] [] s s' g.hV h2).trans (by rw [hadr s hs, hadr s' hs'])
  simp [Comp.parts, Bin.toComp, key]

/-- As systems for the Master equation, a binary system and the composite of the same components are the same. -/
theorem bin_toSys (implemented : ℕ → Bool) {n : ℕ} (e : Enum b.lb b.ub n) :
    (b.toSys implemented e).ex = (b.toComp.toSys implemented e).ex ∧ (b.toSys implemented e).exApplicable = (b.toComp.toSys implemented e).exApplicable ∧
    (∀ t t0 rho, Master.derivative (b.toSys implemented e) t t0 rho = Master.derivative (b.toComp.toSys implemented e) t t0 rho) ∧
    ∀ t t0 rho, Master.exactPart (b.toSys implemented e) t t0 rho = Master.exactPart (b.toComp.toSys implemented e) t t0 rho := by
  have hany : ∀ f : Part → Bool, (∀ p V, f { p with axes := V } = f p) → b.toComp.parts.any f = (f b.free0 || f b.free1 || f b.ia) := by
    intro f hf
    simp [Comp.parts, Bin.toComp, hf, Bool.or_assoc]
  have hha : (b.toSys implemented e).ha = (b.toComp.toSys implemented e).ha := by
    unfold Bin.toSys Comp.toSys
    simp only
    rw [hany (fun p => p.ha.isSome) fun _ _ => rfl]
    congr 1
    congr 1
    funext t psi dpsidt t0 k
    exact bin_comp_addContribution b hb hl hI t t0 _ _ _ (enum_box hb.2.1 e k)
  have hex : (b.toSys implemented e).ex = (b.toComp.toSys implemented e).ex := by
    unfold Bin.toSys Comp.toSys
    simp only
    rw [hany (fun p => p.ex.isSome) fun _ _ => rfl]
    congr 1
    congr 1
    funext t psi t0 k
    exact bin_comp_actWithU b hb hl hI t t0 _ _ (enum_box hb.2.1 e k)
  have hder : ∀ t t0 rho, Master.derivative (b.toSys implemented e) t t0 rho = Master.derivative (b.toComp.toSys implemented e) t t0 rho := by
    intro t t0 rho
    unfold Master.derivative Master.hamiltonianPart
    rw [hha]
    unfold Bin.toSys Comp.toSys
    simp only
    rw [hany (fun p => p.li.isSome) fun _ _ => rfl]
    cases h : (b.free0.li.isSome || b.free1.li.isSome || b.ia.li.isSome) with
    | false => simp
    | true =>
      simp only [if_true]
      unfold Master.addJumps
      simp only
      rw [← bin_comp_nAvr]
      refine List.foldl_ext _ _ _ fun d m hm => ?_
      have hm' : m < 2 ^ 64 := lt_trans (List.mem_range.1 hm) hsz
      have hj : ∀ psi, (fun k => b.actWithJ t (unflatten e psi) m (e k)) = fun k => b.toComp.actWithJ t (unflatten e psi) m (e k) := by
        intro psi
        funext k
        exact bin_comp_actWithJ b hb hl hI hd hsz t _ m hm' _ (enum_box hb.2.1 e k)
      have hs : (Matrix.of fun k l => b.actWithSuperoperator t (unflatten2 e rho) (unflatten2 e d) m ((e k : Idx) ++ (e l : Idx))) =
          Matrix.of fun k l => b.toComp.actWithSuperoperator t (unflatten2 e rho) (unflatten2 e d) m ((e k : Idx) ++ (e l : Idx)) := by
        ext k l
        exact bin_comp_actWithSuperoperator b hb hl hI hd hsz t _ _ m hm' _ ((inBox_append _ _ _ _ hb.2.1 (enum_box hb.2.1 e k).1).2 ⟨enum_box hb.2.1 e k, enum_box hb.2.1 e l⟩)
      unfold Master.jumpTerm
      simp only [hj, hs]
      rfl
  refine ⟨hex, bin_comp_applicable b, hder, fun t t0 rho => ?_⟩
  unfold Master.exactPart
  rw [hex]

/-- **C84.** In Master-equation trajectories, a binary system and the composite of the same components take the same steps, except if the first free subsystem and the interaction have jumps, and the
second free subsystem has no Liouvillean part. -/
theorem bin_master_step (implemented : ℕ → Bool) {n : ℕ} {κ : Type*} (e : Enum b.lb b.ub n) (solver : (ℝ → Master.Rho n → Master.Rho n) → ODE.Stepper (Master.Rho n) κ) (fuel : ℕ) (deltaT : ℝ)
    (x : Master.St n κ) (dimsAgree : Bool) (rho : Master.Rho n) (ode : ODE.Engine κ) :
    Master.construct (b.toSys implemented e) dimsAgree rho ode = Master.construct (b.toComp.toSys implemented e) dimsAgree rho ode ∧
    Master.step solver (b.toSys implemented e) fuel deltaT x = Master.step solver (b.toComp.toSys implemented e) fuel deltaT x := by
  obtain ⟨hex, happ, hder, hexp⟩ := bin_toSys b hb hl hI hd hsz implemented e
  constructor
  · unfold Master.construct
    rw [hex, happ]
  · unfold Master.step
    simp only [hder, hexp]

end CppQED.Composite
