import Verif.Model.PartialTrace
import Verif.Spec.PartialTrace
import Verif.Props.Slice
import Verif.Props.Deflate

/-! Helper lemmas for `Verif.Props.PartialTrace`. -/

namespace CppQED.PTrace
open CppQED.MII (Idx)
open CppQED.Slice CppQED.Spec
open ComplexConjugate

theorem permRec_length (V L rest : List ℕ) : (permRec V L rest).length = L.length := by
  induction L generalizing rest with
  | nil => rfl
  | cons j L ih => simp [permRec, ih]

theorem fillRec_length (V L : List ℕ) (d : Idx) : (fillRec V L d).length = L.length := by
  induction L generalizing d with
  | nil => rfl
  | cons j L ih => unfold fillRec; split <;> simp [ih]

theorem subarrayAddr_length (A : List (Option Int)) (s : Idx) : (subarrayAddr A s).length = A.length := by
  induction A generalizing s with
  | nil => rfl
  | cons o A ih => cases o <;> simp [subarrayAddr, ih]

theorem subarrayAddr_append (A B : List (Option Int)) (s t : Idx) (h : s.length = (A.filter (·.isNone)).length) :
    subarrayAddr (A ++ B) (s ++ t) = subarrayAddr A s ++ subarrayAddr B t := by
  induction A generalizing s with
  | nil => simp at h; subst h; simp [subarrayAddr]
  | cons o A ih =>
    cases o with
    | none =>
      cases s with
      | nil => simp at h
      | cons x s =>
        simp only [List.cons_append, subarrayAddr, List.headD_cons, List.tail_cons]
        rw [ih s (by simpa using h)]
    | some y =>
      simp only [List.cons_append, subarrayAddr]
      rw [ih s (by simpa using h)]

theorem fillRec_none_count (V L : List ℕ) (d : Idx) : ((fillRec V L d).filter (·.isNone)).length = (L.filter (fun j => V.contains j)).length := by
  induction L generalizing d with
  | nil => rfl
  | cons j L ih =>
    by_cases h : V.contains j = true
    · simp only [fillRec, h, if_true]
      rw [List.filter_cons_of_pos (by rfl), List.filter_cons_of_pos (by simpa using h)]; simp [ih]
    · simp only [fillRec, h]
      rw [if_neg (by simp), List.filter_cons_of_neg (by simp), List.filter_cons_of_neg (by simpa using h)]; exact ih _

theorem permRec_lt (r : ℕ) (V L rest : List ℕ) (hL : ∀ j ∈ L, j < r) (hr : ∀ a ∈ rest, a < r) (h0 : 0 < r) : ∀ a ∈ permRec V L rest, a < r := by
  induction L generalizing rest with
  | nil => simp [permRec]
  | cons j L ih =>
    intro a ha
    simp only [permRec, List.mem_cons] at ha
    rcases ha with rfl | ha
    · split
      · cases rest with
        | nil => simpa using h0
        | cons x rest => exact hr _ (by simp)
      · exact hL _ (by simp)
    · apply ih _ (fun j hj => hL j (List.mem_cons_of_mem _ hj)) _ a ha
      split
      · exact fun b hb => hr b (List.mem_of_mem_tail hb)
      · exact hr

theorem lookup_zip_shift (p : List ℕ) (y : Idx) (r a : ℕ) : ((p.map (· + r)).zip y).lookup (a + r) = (p.zip y).lookup a := by
  induction p generalizing y with
  | nil => simp
  | cons x p ih =>
    cases y with
    | nil => simp
    | cons z y =>
      simp only [List.map_cons, List.zip_cons_cons, List.lookup_cons]
      by_cases h : a = x
      · simp [h]
      · have h1 : (a + r == x + r) = false := by simpa using h
        have h2 : (a == x) = false := by simpa using h
        rw [h1, h2, ih]

theorem lookup_none_of_lt (p : List ℕ) (y : Idx) (r a : ℕ) (h : a < r) : ((p.map (· + r)).zip y).lookup a = none := by
  rw [List.lookup_eq_none_iff]
  intro q hq
  have := (List.of_mem_zip (a := q.1) (b := q.2) hq).1
  simp only [List.mem_map] at this
  obtain ⟨x, _, hx⟩ := this
  simp; omega

theorem lookup_none_of_ge (p : List ℕ) (y : Idx) (r a : ℕ) (hp : ∀ x ∈ p, x < r) (h : r ≤ a) : (p.zip y).lookup a = none := by
  rw [List.lookup_eq_none_iff]
  intro q hq
  have := hp _ (List.of_mem_zip (a := q.1) (b := q.2) hq).1
  simp; omega

theorem untranspose_append (r : ℕ) (p : List ℕ) (x y : Idx) (hp : ∀ a ∈ p, a < r) (hx : x.length = p.length) :
    untranspose (2 * r) (p ++ p.map (· + r)) (x ++ y) = untranspose r p x ++ untranspose r p y := by
  unfold untranspose
  rw [List.zip_append hx.symm, show 2 * r = r + r by omega, List.range_add, List.map_append, List.map_map]
  congr 1
  · apply List.map_congr_left
    intro a ha
    rw [List.mem_range] at ha
    rw [List.lookup_append, lookup_none_of_lt p y r a ha]; simp
  · apply List.map_congr_left
    intro a ha
    simp only [Function.comp]
    rw [List.lookup_append, lookup_none_of_ge p x r (r + a) hp (by omega), Nat.add_comm r a, lookup_zip_shift]; simp

theorem diagSliceAddr_eq (r : ℕ) (V : List ℕ) (d s s' : Idx) (hV : ValidAxes r V) (hs : s.length = V.length) :
    diagSliceAddr r V d s s' = sliceAddr r V d s ++ sliceAddr r V d s' := by
  have h0 : 0 < r := by
    obtain ⟨a, ha⟩ := List.exists_mem_of_ne_nil V hV.1
    have := hV.2.2 a ha; omega
  have hp : transposerMeta r V = permRec V (List.range r) V := by
    unfold transposerMeta; rw [foldl_algorithm]; simp
  have hfi : fillIdxValues r V d = fillRec V (List.range r) d := by
    unfold fillIdxValues; rw [foldl_fill]; simp
  unfold diagSliceAddr sliceAddr
  rw [hp, hfi, subarrayAddr_append, untranspose_append]
  · exact permRec_lt r V _ _ (fun j hj => List.mem_range.1 hj) hV.2.2 h0
  · rw [subarrayAddr_length, fillRec_length, permRec_length]
  · rw [fillRec_none_count, filter_contains_length r V hV.2.1 hV.2.2, hs]

theorem partialTrace_sum {σ β : Type*} [AddCommMonoid β] (ds : List σ) (f : σ → β) (h : ds ≠ []) : partialTrace ds f = some (ds.map f).sum := by
  cases ds with
  | nil => exact absurd rfl h
  | cons d ds =>
    simp only [partialTrace, List.map_cons, List.sum_cons, Option.some.injEq]
    generalize f d = c
    induction ds generalizing c with
    | nil => simp
    | cons e ds ih => rw [List.foldl_cons, ih (by simp), List.map_cons, List.sum_cons, add_assoc]

/-- everything we need about the geometry of a slicing -/
structure Geo (r : ℕ) (V : List ℕ) (lb ub : Idx) : Prop where
  hV : ValidAxes r V
  hb : ValidBounds lb ub
  hl : lb.length = r

namespace Geo
variable {r : ℕ} {V : List ℕ} {lb ub : Idx} (g : Geo r V lb ub)
include g

theorem mem_full {i : Idx} : i ∈ boxFinset lb ub ↔ InBox lb ub i := mem_boxFinset _ _ _ g.hb.2.1
theorem mem_slice {s : Idx} : s ∈ boxFinset (sliceBound V lb) (sliceBound V ub) ↔ InBox (sliceBound V lb) (sliceBound V ub) s :=
  mem_boxFinset _ _ _ (by simp [sliceBound])
theorem mem_dummy {d : Idx} : d ∈ boxFinset (filterOut r V lb) (filterOut r V ub) ↔ InBox (filterOut r V lb) (filterOut r V ub) d :=
  mem_boxFinset _ _ _ (by simp [filterOut])

theorem addr {d s : Idx} (hd : d ∈ boxFinset (filterOut r V lb) (filterOut r V ub)) (hs : s ∈ boxFinset (sliceBound V lb) (sliceBound V ub)) :
    sliceAddr r V d s ∈ boxFinset lb ub ∧ coords V (sliceAddr r V d s) = s ∧ filterOut r V (sliceAddr r V d s) = d := by
  rw [g.mem_dummy] at hd; rw [g.mem_slice] at hs
  have hdl : d.length = (negated r V).length := by rw [hd.1]; simp [filterOut]
  have hsl : s.length = V.length := by rw [hs.1]; simp [sliceBound]
  obtain ⟨c1, c2⟩ := coords_sliceAddr r V d s g.hV.2.1 g.hV.2.2 hsl hdl
  refine ⟨?_, c1, c2⟩
  rw [g.mem_full, inBox_split r V lb ub _ g.hV.2.2 g.hl (sliceAddr_spec r V d s g.hV.2.1 g.hV.2.2 hsl hdl).1, c1, c2]
  exact ⟨hs, hd⟩

theorem split {i : Idx} (hi : i ∈ boxFinset lb ub) : coords V i ∈ boxFinset (sliceBound V lb) (sliceBound V ub) ∧
    filterOut r V i ∈ boxFinset (filterOut r V lb) (filterOut r V ub) ∧ sliceAddr r V (filterOut r V i) (coords V i) = i ∧ i.length = r := by
  rw [g.mem_full] at hi
  have hil : i.length = r := by rw [hi.1, g.hl]
  have := (inBox_split r V lb ub i g.hV.2.2 g.hl hil).1 hi
  rw [g.mem_slice, g.mem_dummy]
  exact ⟨this.1, this.2, sliceAddr_coords r V i g.hV.2.1 g.hV.2.2 hil, hil⟩

/-- Fubini: a sum over the full box is a sum over slices and positions -/
theorem fubini {β : Type*} [AddCommMonoid β] (F : Idx → β) :
    ∑ i ∈ boxFinset lb ub, F i = ∑ d ∈ boxFinset (filterOut r V lb) (filterOut r V ub),
      ∑ s ∈ boxFinset (sliceBound V lb) (sliceBound V ub), F (sliceAddr r V d s) := by
  rw [← Finset.sum_product']
  symm
  refine Finset.sum_nbij' (fun p => sliceAddr r V p.1 p.2) (fun i => (filterOut r V i, coords V i)) ?_ ?_ ?_ ?_ ?_
  · rintro ⟨d, s⟩ h
    rw [Finset.mem_product] at h
    exact (g.addr h.1 h.2).1
  · intro i hi
    rw [Finset.mem_product]
    exact ⟨(g.split hi).2.1, (g.split hi).1⟩
  · rintro ⟨d, s⟩ h
    rw [Finset.mem_product] at h
    obtain ⟨_, h1, h2⟩ := g.addr h.1 h.2
    exact Prod.ext h2 h1
  · intro i hi; exact (g.split hi).2.2.1
  · intros; rfl

theorem exists_ds : ∃ ds : List Idx, (∀ fuel, ds.length < fuel → fullRange r V lb ub fuel = some ds) ∧ ds.Nodup ∧ ds ≠ [] ∧
    ds.toFinset = boxFinset (filterOut r V lb) (filterOut r V ub) := by
  obtain ⟨ds, h1, h2, h3⟩ := fullRange_spec r V lb ub g.hV g.hb g.hl
  have hfs : ds.toFinset = boxFinset (filterOut r V lb) (filterOut r V ub) := by
    ext d; rw [List.mem_toFinset, h2, g.mem_dummy]
  refine ⟨ds, h1, h3, ?_, hfs⟩
  rintro rfl
  have : filterOut r V lb ∈ boxFinset (filterOut r V lb) (filterOut r V ub) :=
    (g.split ((g.mem_full).2 (MII.inBox_lb g.hb))).2.1
  rw [← hfs] at this; simp at this

theorem replace_addr {d s s' : Idx} (hd : d ∈ boxFinset (filterOut r V lb) (filterOut r V ub)) (hs : s ∈ boxFinset (sliceBound V lb) (sliceBound V ub))
    (hs' : s' ∈ boxFinset (sliceBound V lb) (sliceBound V ub)) : replace V s' (sliceAddr r V d s) = sliceAddr r V d s' := by
  obtain ⟨h1, h2, h3⟩ := g.addr hd hs
  have hil := (g.split h1).2.2.2
  rw [g.mem_slice] at hs'
  rw [← sliceAddr_eq_replace r V _ s' g.hV hil (by rw [hs'.1]; simp [sliceBound]), h3]

end Geo

end CppQED.PTrace

namespace CppQED.PTrace
open CppQED.MII (Idx)
open CppQED.Slice CppQED.Spec
open ComplexConjugate

/-- the loop nest of `densityOperatorize` over a list of indices -/
noncomputable def goDO (f : Idx → Idx → ℂ) : List Idx → (Idx → Idx → ℂ) → (Idx → Idx → ℂ)
  | [], res => res
  | i :: js, res => goDO f js
      (js.foldl (fun res j => Deflate.set (Deflate.set res i j (f i j)) j i (conj (f i j))) (Deflate.set res i i ((f i i).re : ℂ)))

theorem inner_apply (f : Idx → Idx → ℂ) (i : Idx) (js : List Idx) (hi : i ∉ js) (hf : ∀ j ∈ js, f j i = conj (f i j)) (res : Idx → Idx → ℂ) (a b : Idx) :
    (js.foldl (fun res j => Deflate.set (Deflate.set res i j (f i j)) j i (conj (f i j))) res) a b =
      if (a = i ∧ b ∈ js) ∨ (b = i ∧ a ∈ js) then f a b else res a b := by
  induction js generalizing res with
  | nil => simp
  | cons j js ih =>
    simp only [List.mem_cons, not_or] at hi
    rw [List.foldl_cons, ih hi.2 (fun k hk => hf k (List.mem_cons_of_mem _ hk))]
    have hj := hf j (by simp)
    simp only [Deflate.set_apply, List.mem_cons]
    by_cases h1 : (a = i ∧ b ∈ js) ∨ (b = i ∧ a ∈ js)
    · rw [if_pos h1, if_pos (by tauto)]
    · rw [if_neg h1]
      by_cases h2 : a = j ∧ b = i
      · obtain ⟨rfl, rfl⟩ := h2
        rw [if_pos ⟨rfl, rfl⟩, if_pos (by simp), hj]
      · rw [if_neg h2]
        by_cases h3 : a = i ∧ b = j
        · obtain ⟨rfl, rfl⟩ := h3
          rw [if_pos ⟨rfl, rfl⟩, if_pos (by simp)]
        · rw [if_neg h3, if_neg (by tauto)]

theorem goDO_apply (f : Idx → Idx → ℂ) (L : List Idx) (hL : L.Nodup) (hf : ∀ i ∈ L, ∀ j ∈ L, f j i = conj (f i j)) (res : Idx → Idx → ℂ) (a b : Idx) :
    goDO f L res a b = if a ∈ L ∧ b ∈ L then f a b else res a b := by
  induction L generalizing res with
  | nil => simp [goDO]
  | cons i js ih =>
    obtain ⟨hi, hn⟩ := List.nodup_cons.1 hL
    rw [goDO, ih hn (fun x hx y hy => hf x (List.mem_cons_of_mem _ hx) y (List.mem_cons_of_mem _ hy)),
      inner_apply f i js hi (fun j hj => hf i (by simp) j (List.mem_cons_of_mem _ hj))]
    have hii : ((f i i).re : ℂ) = f i i := Complex.conj_eq_iff_re.1 (hf i (by simp) i (by simp)).symm
    simp only [Deflate.set_apply, List.mem_cons]
    by_cases h1 : a ∈ js ∧ b ∈ js
    · rw [if_pos h1, if_pos (by tauto)]
    · rw [if_neg h1]
      by_cases h2 : (a = i ∧ b ∈ js) ∨ (b = i ∧ a ∈ js)
      · rw [if_pos h2, if_pos (by tauto)]
      · rw [if_neg h2]
        by_cases h3 : a = i ∧ b = i
        · obtain ⟨rfl, rfl⟩ := h3
          rw [if_pos ⟨rfl, rfl⟩, if_pos (by simp), hii]
        · rw [if_neg h3, if_neg (by tauto)]

theorem densityOperatorizeLoop_eq (lb ub : Idx) (hv : ValidBounds lb ub) (m : ℕ) (hm : (m : ℤ) = boxSize lb ub) (f : Idx → Idx → ℂ) (jfuel : ℕ)
    (hj : m < jfuel) (n k : ℕ) (hk : k + n = m) (fuel : ℕ) (hf : n < fuel) (res : Idx → Idx → ℂ) :
    densityOperatorizeLoop lb ub f jfuel fuel ((MII.inc lb ub)^[k] lb) res =
      some (goDO f (List.iterate (MII.inc lb ub) ((MII.inc lb ub)^[k] lb) n) res) := by
  have hl := (Deflate.box_list lb ub hv m hm).1
  have hend : ∀ q ≤ m, ((MII.inc lb ub)^[q] lb = MII.end lb ub ↔ q = m) := by
    intro q hq
    have h := hl q hq (m + 1) (by omega)
    rw [MII.loop] at h
    constructor
    · intro he
      rw [if_pos he] at h
      have := congrArg List.length (Option.some.inj h)
      simp at this; omega
    · intro he
      by_contra hne
      rw [if_neg hne] at h
      subst he
      rw [Nat.sub_self] at h
      simp [List.iterate] at h
  induction n generalizing k fuel res with
  | zero =>
    obtain ⟨fuel, rfl⟩ : ∃ f, fuel = f + 1 := ⟨fuel - 1, by omega⟩
    rw [densityOperatorizeLoop, if_pos ((hend k (by omega)).2 (by omega))]
    rfl
  | succ n ih =>
    obtain ⟨fuel, rfl⟩ : ∃ f, fuel = f + 1 := ⟨fuel - 1, by omega⟩
    have hit : MII.inc lb ub ((MII.inc lb ub)^[k] lb) = (MII.inc lb ub)^[k+1] lb := (Function.iterate_succ_apply' _ _ _).symm
    rw [densityOperatorizeLoop, if_neg (fun h => by have := (hend k (by omega)).1 h; omega), hit, hl (k+1) (by omega) jfuel hj]
    have hmk : m - (k + 1) = n := by omega
    simp only [hmk]
    rw [ih (k+1) (by omega) fuel (by omega), Deflate.iterate_succ_eq, hit, goDO]

theorem card_boxFinset (lb ub : Idx) (hv : ValidBounds lb ub) : ((boxFinset lb ub).card : ℤ) = boxSize lb ub := by
  obtain ⟨L, _, h2, h3, _, h⟩ := MII.mii_visits_box_once_lex lb ub hv
  rw [← h, ← List.toFinset_card_of_nodup h3]
  congr 2
  ext i
  rw [List.mem_toFinset, h2, mem_boxFinset _ _ _ hv.2.1]

theorem Geo.reduce_list {r : ℕ} {V : List ℕ} {lb ub : Idx} (g : Geo r V lb ub) : ∃ ds : List Idx,
    (∀ fuel : ℕ, boxSize lb ub < fuel → fullRange r V lb ub fuel = some ds) ∧ ds.Nodup ∧ ds ≠ [] ∧
    ds.toFinset = boxFinset (filterOut r V lb) (filterOut r V ub) := by
  obtain ⟨ds, h1, h2, h3, h4⟩ := g.exists_ds
  refine ⟨ds, fun fuel hf => h1 fuel ?_, h2, h3, h4⟩
  have hlb := g.mem_full.2 (MII.inBox_lb g.hb)
  have hc : ds.length ≤ (boxFinset lb ub).card := by
    rw [← List.toFinset_card_of_nodup h2, h4]
    apply Finset.card_le_card_of_injOn (fun d => sliceAddr r V d (coords V lb))
    · intro d hd; exact (g.addr hd (g.split hlb).1).1
    · intro d hd e he h
      have a := (g.addr hd (g.split hlb).1).2.2
      have b := (g.addr he (g.split hlb).1).2.2
      simp only at h
      rw [← a, ← b, h]
  have := card_boxFinset lb ub g.hb
  omega

theorem densityOperatorize_eq (lb ub : Idx) (hv : ValidBounds lb ub) (f : Idx → Idx → ℂ) (fuel : ℕ) (hf : boxSize lb ub < fuel)
    (hH : Hermitian lb ub f) : densityOperatorize lb ub fuel f = some (fun a b => if InBox lb ub a ∧ InBox lb ub b then f a b else 0) := by
  have h0 : 0 ≤ boxSize lb ub := by
    obtain ⟨L, _, _, _, _, h⟩ := MII.mii_visits_box_once_lex lb ub hv
    rw [← h]; positivity
  obtain ⟨m, hm⟩ := Int.eq_ofNat_of_zero_le h0
  obtain ⟨_, b2, b3, _⟩ := Deflate.box_list lb ub hv m hm.symm
  have := densityOperatorizeLoop_eq lb ub hv m hm.symm f fuel (by omega) m 0 (by omega) fuel (by omega) (fun _ _ => 0)
  simp only [Function.iterate_zero, id_eq] at this
  rw [densityOperatorize, this]
  congr 1
  funext a b
  rw [goDO_apply f _ b2]
  · simp only [b3]
  · intro i hi j hj
    exact hH i ((mem_boxFinset _ _ _ hv.2.1).2 ((b3 i).1 hi)) j ((mem_boxFinset _ _ _ hv.2.1).2 ((b3 j).1 hj))

end CppQED.PTrace
