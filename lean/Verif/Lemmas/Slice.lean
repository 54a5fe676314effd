import Verif.Model.Slice
import Verif.Spec.Slice
import Verif.Lemmas.MultiIndex
import Mathlib.Data.List.Perm.Basic
import Mathlib.Data.List.Nodup
import Mathlib.Data.List.Zip

/-! Helper lemmas for `Verif.Props.Slice`. -/

namespace CppQED.Slice
open CppQED.MII (Idx)
open CppQED.Spec

def permRec (V : List ℕ) : List ℕ → List ℕ → List ℕ
  | [], _ => []
  | j :: L, rest => (if V.contains j then rest.headD 0 else j) :: permRec V L (if V.contains j then rest.tail else rest)

theorem foldl_algorithm (V L acc rest) : (L.foldl (algorithmStep V) (acc, rest)).1 = acc ++ permRec V L rest := by
  induction L generalizing acc rest with
  | nil => simp [permRec]
  | cons j L ih =>
    rw [List.foldl_cons]
    show (L.foldl (algorithmStep V) (acc ++ [_], _)).1 = _
    rw [ih, permRec, List.append_assoc]; rfl

def fillRec (V : List ℕ) : List ℕ → Idx → List (Option Int)
  | [], _ => []
  | j :: L, d => if V.contains j then none :: fillRec V L d else some (d.headD 0) :: fillRec V L d.tail

theorem foldl_fill (V L acc d) : (L.foldl (fillStep V) (acc, d)).1 = acc ++ fillRec V L d := by
  induction L generalizing acc d with
  | nil => simp [fillRec]
  | cons j L ih =>
    rw [List.foldl_cons]
    by_cases h : V.contains j = true
    · simp only [fillStep, h, if_true, fillRec]; rw [ih]; simp
    · simp only [fillStep, h, fillRec]; simp only [Bool.false_eq_true, if_false]; rw [ih]; simp

theorem zip_perm (V L : List ℕ) (rest : List ℕ) (s d : Idx) (h1 : rest.length = (L.filter (fun j => V.contains j)).length)
    (h2 : s.length = rest.length) (h3 : d.length = (L.filter (fun j => !V.contains j)).length) :
    ((permRec V L rest).zip (subarrayAddr (fillRec V L d) s)).Perm
      (rest.zip s ++ (L.filter (fun j => !V.contains j)).zip d) := by
  induction L generalizing rest s d with
  | nil => simp at h1; subst h1; simp [permRec, fillRec]
  | cons j L ih =>
    by_cases h : V.contains j = true
    · rw [List.filter_cons_of_pos (by simpa using h)] at h1
      rw [List.filter_cons_of_neg (by simpa using h)] at h3 ⊢
      cases rest with
      | nil => simp at h1
      | cons v rest =>
        cases s with
        | nil => simp at h2
        | cons x s =>
          simp only [permRec, fillRec, h, if_true, subarrayAddr, List.headD_cons, List.tail_cons, List.zip_cons_cons, List.cons_append]
          exact (ih rest s d (by simpa using h1) (by simpa using h2) h3).cons _
    · rw [List.filter_cons_of_neg (by simpa using h)] at h1
      rw [List.filter_cons_of_pos (by simpa using h)] at h3 ⊢
      cases d with
      | nil => simp at h3
      | cons x d =>
        simp only [permRec, fillRec, h, Bool.false_eq_true, if_false, subarrayAddr, List.headD_cons, List.tail_cons, List.zip_cons_cons]
        refine ((ih rest s d h1 h2 (by simpa using h3)).cons _).trans ?_
        exact List.perm_middle.symm

theorem lookup_of_mem {l : List (ℕ × Int)} (h : (l.map Prod.fst).Nodup) {a : ℕ} {b : Int} (hm : (a, b) ∈ l) :
    l.lookup a = some b := by
  induction l with
  | nil => simp at hm
  | cons p l ih =>
    obtain ⟨k, v⟩ := p
    simp only [List.map_cons, List.nodup_cons] at h
    rw [List.mem_cons] at hm
    rcases hm with hm | hm
    · cases hm; simp
    · have : a ≠ k := by rintro rfl; exact h.1 (List.mem_map.2 ⟨_, hm, rfl⟩)
      rw [List.lookup_cons]
      have h2 : (a == k) = false := by simpa using this
      rw [h2]; exact ih h.2 hm

theorem filter_contains_length (r : ℕ) (V : List ℕ) (hV : V.Nodup) (hr : ∀ a ∈ V, a < r) :
    ((List.range r).filter (fun j => V.contains j)).length = V.length := by
  apply List.Perm.length_eq
  rw [List.perm_ext_iff_of_nodup (List.nodup_range.filter _) hV]
  intro a
  simp only [List.mem_filter, List.mem_range, List.contains_iff_mem]
  exact ⟨fun h => h.2, fun h => ⟨hr a h, h⟩⟩

theorem mem_negated {r : ℕ} {V : List ℕ} {a : ℕ} : a ∈ negated r V ↔ a < r ∧ a ∉ V := by
  simp [negated]

theorem negated_nodup (r : ℕ) (V : List ℕ) : (negated r V).Nodup := List.nodup_range.filter _

theorem negated_length (r : ℕ) (V : List ℕ) (hV : V.Nodup) (hr : ∀ a ∈ V, a < r) : V.length + (negated r V).length = r := by
  have h := filter_contains_length r V hV hr
  have := List.length_eq_length_filter_add (l := List.range r) (fun j => V.contains j)
  rw [List.length_range, h] at this
  simpa [negated] using this.symm

/-- the pairs (axis, coordinate) of the address of a slice element -/
theorem sliceAddr_spec (r : ℕ) (V : List ℕ) (d s : Idx) (hV : V.Nodup) (hr : ∀ a ∈ V, a < r) (hs : s.length = V.length)
    (hd : d.length = (negated r V).length) :
    (sliceAddr r V d s).length = r ∧
    (∀ m < V.length, (sliceAddr r V d s).getD (V.getD m 0) 0 = s.getD m 0) ∧
    (∀ m < (negated r V).length, (sliceAddr r V d s).getD ((negated r V).getD m 0) 0 = d.getD m 0) := by
  have hperm := zip_perm V (List.range r) V s d (filter_contains_length r V hV hr).symm hs hd
  have hp : transposerMeta r V = permRec V (List.range r) V := by
    unfold transposerMeta; rw [foldl_algorithm]; simp
  have hfi : fillIdxValues r V d = fillRec V (List.range r) d := by
    unfold fillIdxValues; rw [foldl_fill]; simp
  set Z := (permRec V (List.range r) V).zip (subarrayAddr (fillRec V (List.range r) d) s) with hZ
  have haddr : sliceAddr r V d s = (List.range r).map (fun a => (Z.lookup a).getD 0) := by
    unfold sliceAddr untranspose; rw [hp, hfi]
  change Z.Perm (V.zip s ++ (negated r V).zip d) at hperm
  have hkeys : (Z.map Prod.fst).Nodup := by
    rw [(hperm.map Prod.fst).nodup_iff, List.map_append, List.map_fst_zip (by omega), List.map_fst_zip (by omega)]
    refine List.nodup_append.2 ⟨hV, negated_nodup r V, ?_⟩
    intro a ha b hb hab
    subst hab
    exact (mem_negated.1 hb).2 ha
  have hget : ∀ a b, a < r → (a, b) ∈ Z → (sliceAddr r V d s).getD a 0 = b := by
    intro a b har hm
    rw [haddr, List.getD_eq_getElem?_getD, List.getElem?_map, List.getElem?_range har]
    simp [lookup_of_mem hkeys hm]
  refine ⟨by rw [haddr]; simp, ?_, ?_⟩
  · intro m hm
    have hmem : (V.getD m 0, s.getD m 0) ∈ V.zip s := by
      rw [List.mem_iff_getElem]
      refine ⟨m, by simp; omega, ?_⟩
      simp [List.getD_eq_getElem?_getD, hm, hs]
    have hVm : V.getD m 0 ∈ V := by
      rw [List.getD_eq_getElem?_getD, List.getElem?_eq_getElem hm]; simp
    exact hget _ _ (hr _ hVm) (hperm.mem_iff.2 (List.mem_append_left _ hmem))
  · intro m hm
    have hmem : ((negated r V).getD m 0, d.getD m 0) ∈ (negated r V).zip d := by
      rw [List.mem_iff_getElem]
      refine ⟨m, by simp; omega, ?_⟩
      simp [List.getD_eq_getElem?_getD, hm, hd]
    have hVm : (negated r V).getD m 0 ∈ negated r V := by
      rw [List.getD_eq_getElem?_getD, List.getElem?_eq_getElem hm]; simp
    exact hget _ _ (mem_negated.1 hVm).1 (hperm.mem_iff.2 (List.mem_append_right _ hmem))

theorem getD_map_getD (V : List ℕ) (b : Idx) (m : ℕ) (hm : m < V.length) :
    (V.map (fun j => b.getD j 0)).getD m 0 = b.getD (V.getD m 0) 0 := by
  simp [List.getD_eq_getElem?_getD, hm]

theorem exists_getD_of_mem {V : List ℕ} {a : ℕ} (h : a ∈ V) : ∃ m < V.length, V.getD m 0 = a := by
  obtain ⟨m, hm, rfl⟩ := List.mem_iff_getElem.1 h
  exact ⟨m, hm, by simp [List.getD_eq_getElem?_getD, hm]⟩

theorem coords_sliceAddr (r : ℕ) (V : List ℕ) (d s : Idx) (hV : V.Nodup) (hr : ∀ a ∈ V, a < r) (hs : s.length = V.length)
    (hd : d.length = (negated r V).length) : coords V (sliceAddr r V d s) = s ∧ filterOut r V (sliceAddr r V d s) = d := by
  obtain ⟨h1, h2, h3⟩ := sliceAddr_spec r V d s hV hr hs hd
  constructor
  · apply MII.ext_idx (n := V.length) (by simp [coords]) hs
    intro m hm
    rw [coords, getD_map_getD _ _ _ hm, h2 m hm]
  · apply MII.ext_idx (n := (negated r V).length) (by simp [filterOut]) hd
    intro m hm
    rw [filterOut, getD_map_getD _ _ _ hm, h3 m hm]

theorem sliceAddr_coords (r : ℕ) (V : List ℕ) (i : Idx) (hV : V.Nodup) (hr : ∀ a ∈ V, a < r) (hi : i.length = r) :
    sliceAddr r V (filterOut r V i) (coords V i) = i := by
  obtain ⟨h1, h2, h3⟩ := sliceAddr_spec r V (filterOut r V i) (coords V i) hV hr (by simp [coords]) (by simp [filterOut])
  apply MII.ext_idx h1 hi
  intro a ha
  by_cases haV : a ∈ V
  · obtain ⟨m, hm, rfl⟩ := exists_getD_of_mem haV
    rw [h2 m hm, coords, getD_map_getD _ _ _ hm]
  · obtain ⟨m, hm, rfl⟩ := exists_getD_of_mem (mem_negated.2 ⟨ha, haV⟩)
    rw [h3 m hm, filterOut, getD_map_getD _ _ _ hm]

theorem inBox_split (r : ℕ) (V : List ℕ) (lb ub i : Idx) (hr : ∀ a ∈ V, a < r) (hl : lb.length = r) (hi : i.length = r) :
    InBox lb ub i ↔ InBox (sliceBound V lb) (sliceBound V ub) (coords V i) ∧
      InBox (filterOut r V lb) (filterOut r V ub) (filterOut r V i) := by
  constructor
  · intro h
    refine ⟨⟨by simp [coords, sliceBound], fun m hm => ?_⟩, ⟨by simp [filterOut], fun m hm => ?_⟩⟩
    · simp only [sliceBound, List.length_map] at hm
      have hVm : V.getD m 0 ∈ V := by rw [List.getD_eq_getElem?_getD, List.getElem?_eq_getElem hm]; simp
      simp only [sliceBound, coords, getD_map_getD _ _ _ hm]
      exact h.2 _ (by rw [hl]; exact hr _ hVm)
    · simp only [filterOut, List.length_map] at hm
      have hVm : (negated r V).getD m 0 ∈ negated r V := by rw [List.getD_eq_getElem?_getD, List.getElem?_eq_getElem hm]; simp
      simp only [filterOut, getD_map_getD _ _ _ hm]
      exact h.2 _ (by rw [hl]; exact (mem_negated.1 hVm).1)
  · rintro ⟨h1, h2⟩
    refine ⟨by omega, fun a ha => ?_⟩
    by_cases haV : a ∈ V
    · obtain ⟨m, hm, rfl⟩ := exists_getD_of_mem haV
      have := h1.2 m (by simpa [sliceBound] using hm)
      simpa only [sliceBound, coords, getD_map_getD _ _ _ hm] using this
    · obtain ⟨m, hm, rfl⟩ := exists_getD_of_mem ((mem_negated (r := r)).2 ⟨by omega, haV⟩)
      have := h2.2 m (by simpa [filterOut] using hm)
      simpa only [filterOut, getD_map_getD _ _ _ hm] using this

/-- write-back of a slice, pointwise -/
theorem writeSlice_apply {α : Type*} (r : ℕ) (V : List ℕ) (lb ub d : Idx) (t psi : Arr α) (i : Idx) (hV : V.Nodup)
    (hr : ∀ a ∈ V, a < r) (hl : lb.length = r) (hd : InBox (filterOut r V lb) (filterOut r V ub) d) (hi : InBox lb ub i) :
    writeSlice r V lb ub d t psi i = if filterOut r V i = d then t (coords V i) else psi i := by
  have hdl : d.length = (negated r V).length := by rw [hd.1]; simp [filterOut]
  have hil : i.length = r := by rw [hi.1, hl]
  unfold writeSlice
  split
  · rename_i h
    obtain ⟨hs1, hs2⟩ := h.choose_spec
    have hsl : h.choose.length = V.length := by rw [hs1.1]; simp [sliceBound]
    obtain ⟨c1, c2⟩ := coords_sliceAddr r V d h.choose hV hr hsl hdl
    rw [hs2] at c1 c2
    rw [if_pos c2, c1]
  · rename_i h
    rw [if_neg]
    intro he
    apply h
    refine ⟨coords V i, ((inBox_split r V lb ub i hr hl hil).1 hi).1, ?_⟩
    rw [← he]; exact sliceAddr_coords r V i hV hr hil

/-- write-back does not touch anything outside the array -/
theorem writeSlice_outside {α : Type*} (r : ℕ) (V : List ℕ) (lb ub d : Idx) (t psi : Arr α) (i : Idx) (hV : V.Nodup)
    (hr : ∀ a ∈ V, a < r) (hl : lb.length = r) (hd : InBox (filterOut r V lb) (filterOut r V ub) d) (hi : ¬ InBox lb ub i) :
    writeSlice r V lb ub d t psi i = psi i := by
  have hdl : d.length = (negated r V).length := by rw [hd.1]; simp [filterOut]
  unfold writeSlice
  rw [dif_neg]
  rintro ⟨s, hs1, rfl⟩
  have hsl : s.length = V.length := by rw [hs1.1]; simp [sliceBound]
  obtain ⟨c1, c2⟩ := coords_sliceAddr r V d s hV hr hsl hdl
  apply hi
  rw [inBox_split r V lb ub _ hr hl (sliceAddr_spec r V d s hV hr hsl hdl).1, c1, c2]
  exact ⟨hs1, hd⟩

/-- general fold: each slice visited once, its new contents computed from the current slice by `F d` -/
theorem fold_write {β : Type*} (r : ℕ) (V : List ℕ) (lb ub : Idx) (hV : V.Nodup)
    (hr : ∀ a ∈ V, a < r) (hl : lb.length = r) (ds : List Idx)
    (hds : ∀ d ∈ ds, InBox (filterOut r V lb) (filterOut r V ub) d) (hnd : ds.Nodup)
    (F : Idx → Arr β → Arr β)
    (hF : ∀ d t t', (∀ s, InBox (sliceBound V lb) (sliceBound V ub) s → t s = t' s) → ∀ s, InBox (sliceBound V lb) (sliceBound V ub) s → F d t s = F d t' s)
    (psi : Arr β) (i : Idx) (hi : InBox lb ub i) :
    ds.foldl (fun psi d => writeSlice r V lb ub d (F d (readSlice r V d psi)) psi) psi i =
      if filterOut r V i ∈ ds then F (filterOut r V i) (readSlice r V (filterOut r V i) psi) (coords V i) else psi i := by
  induction ds generalizing psi with
  | nil => simp
  | cons d ds ih =>
    have hil : i.length = r := by rw [hi.1, hl]
    rw [List.foldl_cons, ih (fun d hd => hds d (List.mem_cons_of_mem _ hd)) (List.nodup_cons.1 hnd).2]
    have hd := hds d List.mem_cons_self
    have hci := ((inBox_split r V lb ub i hr hl hil).1 hi)
    by_cases h : filterOut r V i ∈ ds
    · have hne : filterOut r V i ≠ d := by rintro rfl; exact (List.nodup_cons.1 hnd).1 h
      rw [if_pos h, if_pos (List.mem_cons_of_mem _ h)]
      apply hF _ _ _ _ _ hci.1
      intro s hs
      have hsl : s.length = V.length := by rw [hs.1]; simp [sliceBound]
      obtain ⟨c1, c2⟩ := coords_sliceAddr r V (filterOut r V i) s hV hr hsl (by simp [filterOut])
      have hbox : InBox lb ub (sliceAddr r V (filterOut r V i) s) := by
        rw [inBox_split r V lb ub _ hr hl (sliceAddr_spec r V _ s hV hr hsl (by simp [filterOut])).1, c1, c2]
        exact ⟨hs, hci.2⟩
      show writeSlice r V lb ub d _ psi (sliceAddr r V (filterOut r V i) s) = psi _
      rw [writeSlice_apply r V lb ub d _ psi _ hV hr hl hd hbox, c2, if_neg hne]
    · rw [if_neg h, writeSlice_apply r V lb ub d _ psi i hV hr hl hd hi]
      by_cases he : filterOut r V i = d
      · rw [if_pos he, if_pos (by rw [he]; exact List.mem_cons_self), he]
      · rw [if_neg he, if_neg (by rw [List.mem_cons]; tauto)]

theorem fold_write_outside {β : Type*} (r : ℕ) (V : List ℕ) (lb ub : Idx) (hV : V.Nodup)
    (hr : ∀ a ∈ V, a < r) (hl : lb.length = r) (ds : List Idx)
    (hds : ∀ d ∈ ds, InBox (filterOut r V lb) (filterOut r V ub) d)
    (F : Idx → Arr β → Arr β) (psi : Arr β) (i : Idx) (hi : ¬ InBox lb ub i) :
    ds.foldl (fun psi d => writeSlice r V lb ub d (F d (readSlice r V d psi)) psi) psi i = psi i := by
  induction ds generalizing psi with
  | nil => simp
  | cons d ds ih =>
    rw [List.foldl_cons, ih (fun d hd => hds d (List.mem_cons_of_mem _ hd)),
      writeSlice_outside r V lb ub d _ psi i hV hr hl (hds d List.mem_cons_self) hi]

end CppQED.Slice
