import Verif.Spec.ExpValues
import Mathlib.Data.List.Basic
import Mathlib.Data.List.Nodup

/-! # C180-C182: dictionaries with an order, collections of expectation values -/

namespace CppQED.ExpValues
open CppQED.Tridiag

section dict
variable {κ ν : Type} [DecidableEq κ]

/-- The dictionary represents the entries. -/
def Represents (d : OrderedDict κ ν) (l : List (κ × ν)) : Prop := d.keys = l.map Prod.fst ∧ d.keys.Nodup ∧ ∀ k v, d.data k = some v ↔ (k, v) ∈ l

omit [DecidableEq κ] in
theorem Represents.mem {d : OrderedDict κ ν} {l : List (κ × ν)} (h : Represents d l) (k : κ) : k ∈ l.map Prod.fst ↔ ∃ v, d.data k = some v := by
  simp only [List.mem_map, Prod.exists, h.2.2]
  constructor
  · rintro ⟨a, b, hm, rfl⟩; exact ⟨b, hm⟩
  · rintro ⟨v, hv⟩; exact ⟨k, v, hv, rfl⟩

theorem represents_set {d : OrderedDict κ ν} {l : List (κ × ν)} (h : Represents d l) (k : κ) (v : ν) : Represents (d.set k v) (Op.act l (.set k v)) := by
  have hm := h.mem k
  simp only [OrderedDict.set, Op.act]
  by_cases hk : k ∈ l.map Prod.fst
  · obtain ⟨w, hw⟩ := hm.1 hk
    rw [if_pos hk]
    refine ⟨?_, ?_, ?_⟩
    · simp only [hw, Option.isNone_some, Bool.false_eq_true, if_false, List.map_map]
      rw [h.1]
      refine List.map_congr_left fun e _ => ?_
      simp only [Function.comp]
      split_ifs with he
      · exact he
      · rfl
    · simpa [hw] using h.2.1
    · intro k' v'
      simp only [List.mem_map]
      by_cases e : k' = k
      · subst e
        simp only [Function.update_self, Option.some.injEq]
        constructor
        · rintro rfl
          exact ⟨(k', w), (h.2.2 _ _).1 hw, by simp⟩
        · rintro ⟨a, -, ha⟩
          split_ifs at ha with hh
          · exact (Prod.mk.inj ha).2
          · exact absurd (by rw [ha]) hh
      · simp only [Function.update_of_ne e, h.2.2]
        constructor
        · intro hh
          exact ⟨(k', v'), hh, by simp [e]⟩
        · rintro ⟨a, ha, hh⟩
          split_ifs at hh with he
          · exact absurd (Prod.mk.inj hh).1.symm e
          · rwa [← hh]
  · have hn : d.data k = none := by
      cases hd : d.data k with
      | none => rfl
      | some w => exact absurd (hm.2 ⟨w, hd⟩) hk
    rw [if_neg hk]
    refine ⟨?_, ?_, ?_⟩
    · simp [hn, h.1]
    · simp only [hn, Option.isNone_none, if_true]
      rw [List.nodup_append]
      refine ⟨h.2.1, by simp, fun a ha b hb => ?_⟩
      rintro rfl
      simp only [List.mem_singleton] at hb
      subst hb
      exact hk (h.1 ▸ ha)
    · intro k' v'
      simp only [List.mem_append, List.mem_singleton, Prod.mk.injEq]
      by_cases e : k' = k
      · subst e
        simp only [Function.update_self, Option.some.injEq, true_and]
        constructor
        · rintro rfl; exact Or.inr rfl
        · rintro (hh | hh)
          · exact absurd ((h.2.2 _ _).2 hh) (by simp [hn])
          · exact hh.symm
      · simp [h.2.2, e]

theorem erase_fst {l : List (κ × ν)} (hl : (l.map Prod.fst).Nodup) (k : κ) : (l.map Prod.fst).erase k = (l.filter fun e => e.1 ≠ k).map Prod.fst := by
  rw [List.Nodup.erase_eq_filter hl, List.filter_map]
  congr 1
  refine List.filter_congr fun e _ => ?_
  by_cases he : e.1 = k <;> simp [he]

theorem del_ok {d : OrderedDict κ ν} {l : List (κ × ν)} (h : Represents d l) (k : κ) :
    (k ∈ l.map Prod.fst → ∃ d', d.del k = .ok d' ∧ Represents d' (Op.act l (.del k))) ∧ (k ∉ l.map Prod.fst → d.del k = .throw ∧ Op.act l (.del k) = l) := by
  constructor
  · intro hk
    obtain ⟨w, hw⟩ := (h.mem k).1 hk
    refine ⟨⟨d.keys.erase k, Function.update d.data k none⟩, ?_, ?_, ?_, ?_⟩
    · simp only [OrderedDict.del, hw]
      rw [if_pos (by rw [h.1]; exact hk)]
    · show d.keys.erase k = _
      rw [h.1, erase_fst (h.1 ▸ h.2.1)]
      rfl
    · exact h.2.1.erase k
    · intro k' v'
      show Function.update d.data k none k' = some v' ↔ (k', v') ∈ l.filter _
      by_cases e : k' = k
      · subst e; simp
      · simp [h.2.2, e]
  · intro hk
    have hn : d.data k = none := by
      cases hd : d.data k with
      | none => rfl
      | some w => exact absurd ((h.mem k).2 ⟨w, hd⟩) hk
    refine ⟨by simp [OrderedDict.del, hn], ?_⟩
    show l.filter _ = l
    rw [List.filter_eq_self]
    intro e he
    simp only [ne_eq, decide_not, Bool.not_eq_true', decide_eq_false_iff_not]
    rintro rfl
    exact hk (List.mem_map_of_mem he)

theorem represents_after (h : List (Op κ ν)) : Represents (OrderedDict.after h) (entries h) := by
  unfold OrderedDict.after entries
  have base : Represents (OrderedDict.init : OrderedDict κ ν) [] := ⟨rfl, by simp [OrderedDict.init], by simp [OrderedDict.init]⟩
  generalize (OrderedDict.init : OrderedDict κ ν) = d at base
  generalize ([] : List (κ × ν)) = l at base
  induction h generalizing d l with
  | nil => exact base
  | cons o h ih =>
    rw [List.foldl_cons, List.foldl_cons]
    refine ih _ _ ?_
    cases o with
    | set k v => exact represents_set base k v
    | del k =>
      by_cases hk : k ∈ l.map Prod.fst
      · obtain ⟨d', h1, h2⟩ := (del_ok base k).1 hk
        simpa only [h1] using h2
      · obtain ⟨h1, h2⟩ := (del_ok base k).2 hk
        simpa only [h1, h2] using base

omit [DecidableEq κ] in
theorem itemsLoop_ok (d : OrderedDict κ ν) (l : List (κ × ν)) (h : ∀ e ∈ l, d.data e.1 = some e.2) : d.itemsLoop (l.map Prod.fst) = .ok l := by
  induction l with
  | nil => rfl
  | cons e l ih =>
    have h1 := h e (by simp)
    simp only [List.map_cons, OrderedDict.itemsLoop, OrderedDict.get, h1, Outcome.bind]
    rw [ih fun e' he' => h e' (by simp [he'])]

/-- C180: after any history, the dictionary has the entries of the history in their order, its keys are those of the entries, each once, looking up a key gives its entry, and gives an error if there is none. -/
theorem orderedDict_refines (h : List (Op κ ν)) :
    (OrderedDict.after h).items = .ok (entries h) ∧ (OrderedDict.after h).keys = (entries h).map Prod.fst ∧ (OrderedDict.after h).keys.Nodup ∧
    (∀ k v, (OrderedDict.after h).get k = .ok v ↔ (k, v) ∈ entries h) ∧ ∀ k, (OrderedDict.after h).get k = .throw ↔ ∀ v, (k, v) ∉ entries h := by
  have r := represents_after h
  refine ⟨?_, r.1, r.2.1, fun k v => ?_, fun k => ?_⟩
  · unfold OrderedDict.items
    rw [r.1]
    exact itemsLoop_ok _ _ fun e he => (r.2.2 _ _).2 he
  · rw [← r.2.2]
    unfold OrderedDict.get
    cases (OrderedDict.after h).data k <;> simp
  · simp only [← r.2.2]
    unfold OrderedDict.get
    cases (OrderedDict.after h).data k <;> simp

/-- C180: deleting a key gives an error exactly if there is no such entry. -/
theorem delete_iff (h : List (Op κ ν)) (k : κ) : (OrderedDict.after h).del k = .throw ↔ ∀ v, (k, v) ∉ entries h := by
  have r := represents_after h
  constructor
  · intro hd v hv
    obtain ⟨d', h1, -⟩ := (del_ok r k).1 (List.mem_map_of_mem (f := Prod.fst) hv)
    rw [h1] at hd
    cases hd
  · intro hn
    refine ((del_ok r k).2 fun hk => ?_).1
    obtain ⟨e, he, rfl⟩ := List.mem_map.1 hk
    exact hn e.2 he

/-- A history with a changed and a deleted entry, and with one that is made again. -/
example : entries [Op.set 'a' 1, .set 'b' 2, .set 'a' 3, .del 'b', .set 'c' 4, .set 'b' 5] = [('a', 3), ('c', 4), ('b', 5)] := by decide

end dict

section coll
variable {α τ : Type}

theorem trajLoop_length (time : Option τ) (l : List (Traj α τ)) (ts : List (Option Str)) (h : l.length ≤ ts.length) : (trajLoop time l ts).length = l.length := by
  induction l generalizing ts with
  | nil => cases ts <;> rfl
  | cons c l ih =>
    cases ts with
    | nil => simp at h
    | cons t ts => simp [trajLoop, ih ts (by simpa using h)]

theorem trajLoop_get (time : Option τ) (l : List (Traj α τ)) (ts : List (Option Str)) (n : ℕ) :
    (trajLoop time l ts)[n]? = (l[n]?).bind fun c => (ts[n]?).map fun t => Traj.new c time t := by
  induction l generalizing ts n with
  | nil => cases ts <;> simp [trajLoop]
  | cons c l ih =>
    cases ts with
    | nil => simp [trajLoop]
    | cons t ts =>
      cases n with
      | zero => simp [trajLoop]
      | succ n => simp [trajLoop, ih]

theorem padded (l : List (Traj α τ)) (titles : Option (List (Option Str))) (n : ℕ) (hn : n < l.length) :
    (padTitles titles l.length)[n]? = some ((titles.getD [])[n]?.join) := by
  unfold padTitles
  cases titles with
  | none => simp [hn]
  | some ts =>
    by_cases h : n < ts.length
    · simp [h, List.getElem?_append_left h]
    · rw [List.getElem?_append_right (by omega)]
      simp [List.getElem?_eq_none (by omega : ts.length ≤ n), List.getElem?_replicate]
      omega

/-- C181: a collection of rows has these rows, as many titles as rows, each the given one or that of the row or a question mark, its time is the given one or that of the rows together, and each of its trajectories has the values of its row, and the given
time or that of the row. -/
theorem collection_new (l : List (Traj α τ)) (t time : Option τ) (titles : Option (List (Option Str))) :
    let c := Coll.new (.rows l t) time titles
    c.rows = l.map (·.values) ∧ c.time = (time.orElse fun _ => t) ∧ c.titles = (List.range l.length).map (titleOf l titles) ∧
    ∀ n : ℕ, (c.trajs[n]?).map (fun u : Traj α τ => (u.values, u.time)) = (l[n]?).map fun r : Traj α τ => (r.values, time.orElse fun _ => r.time) := by
  have get : ∀ n : ℕ, (Coll.new (.rows l t) time titles).trajs[n]? = (l[n]?).map fun c => Traj.new c time ((titles.getD [])[n]?.join) := fun n => by
    show (trajLoop time l _)[n]? = _
    rw [trajLoop_get]
    by_cases h : n < l.length
    · rw [padded l titles n h, List.getElem?_eq_getElem h]; rfl
    · rw [List.getElem?_eq_none (by omega)]; rfl
  refine ⟨rfl, by cases time <;> rfl, ?_, fun n => ?_⟩
  · apply List.ext_getElem?
    intro n
    unfold Coll.titles
    rw [List.getElem?_map, get, List.getElem?_map]
    by_cases h : n < l.length
    · rw [List.getElem?_eq_getElem h, List.getElem?_range h]
      simp only [Option.map_some, titleOf, Traj.new, List.getElem?_eq_getElem h, Option.bind_some]
      cases ((titles.getD [])[n]?).join with
      | some s => rfl
      | none => cases l[n].title <;> rfl
    · rw [List.getElem?_eq_none (l := l) (by omega), List.getElem?_eq_none (l := List.range l.length) (by simpa using h)]
      rfl
  · rw [get]
    cases l[n]? with
    | none => rfl
    | some r => cases time <;> rfl

theorem subsystem_slices (c : Coll α τ) (a b : ℕ) (h : c.trajs.length = c.rows.length) :
    (c.sub a b).rows = slice a b c.rows ∧ (c.sub a b).titles = slice a b c.titles ∧ (c.sub a b).time = c.time := by
  obtain ⟨h1, h2, h3, -⟩ := collection_new ((slice a b c.rows).map fun r => (⟨r, c.time, none⟩ : Traj α τ)) c.time c.time (some ((slice a b c.titles).map some))
  refine ⟨?_, ?_, ?_⟩
  · refine Eq.trans h1 ?_
    simp [Function.comp_def]
  · refine Eq.trans h3 ?_
    have hl : (slice a b c.titles).length = (slice a b c.rows).length := by simp [slice, Coll.titles, h]
    apply List.ext_getElem?
    intro n
    rw [List.getElem?_map, List.length_map, ← hl]
    by_cases hn : n < (slice a b c.titles).length
    · rw [List.getElem?_range hn, List.getElem?_eq_getElem hn]
      simp [titleOf, hn]
    · rw [List.getElem?_eq_none (by simpa using hn), List.getElem?_eq_none (by omega)]
      rfl
  · refine Eq.trans h2 ?_
    cases c.time <;> rfl

theorem slice_get {β : Type} (a b : ℕ) (l : List β) (n : ℕ) : (slice a b l)[n]? = if a + n < b then l[a + n]? else none := by
  simp [slice, List.getElem?_take]

/-- C181: the row and the title with the number `n` of a subsystem, whose range goes from `a` to before `b`, are those with the number `a + n` of the collection as long as this is below `b`, and its time is that of the collection. -/
theorem subsystem_titles (c : Coll α τ) (a b : ℕ) (h : c.trajs.length = c.rows.length) :
    (∀ n : ℕ, (c.sub a b).rows[n]? = if a + n < b then c.rows[a + n]? else none) ∧ (∀ n : ℕ, (c.sub a b).titles[n]? = if a + n < b then c.titles[a + n]? else none) ∧ (c.sub a b).time = c.time := by
  obtain ⟨h1, h2, h3⟩ := subsystem_slices c a b h
  exact ⟨fun n => by rw [h1, slice_get], fun n => by rw [h2, slice_get], h3⟩

/-- C181: every collection has as many trajectories as rows. -/
theorem collection_length (data : Source α τ) (time : Option τ) (titles : Option (List (Option Str))) : (Coll.new data time titles).trajs.length = (Coll.new data time titles).rows.length := by
  cases data with
  | single t => rfl
  | rows l t =>
    show (trajLoop time l _).length = (l.map _).length
    rw [trajLoop_length, List.length_map]
    cases titles <;> simp [padTitles]
    omega

theorem subsystems_after (c : Coll α τ) (l : List (Str × ℕ × ℕ)) : c.subsystems l = OrderedDict.after (l.map fun e => Op.set e.1 (c.sub e.2.1 e.2.2)) := by
  unfold Coll.subsystems OrderedDict.after
  rw [List.foldl_map]

/-- C181: the subsystems are in the order in which they are given (by a dictionary, in which no key occurs twice), each with its own range. -/
theorem subsystems_order (c : Coll α τ) (l : List (Str × ℕ × ℕ)) (hl : (l.map Prod.fst).Nodup) : (c.subsystems l).items = .ok (l.map fun e => (e.1, c.sub e.2.1 e.2.2)) := by
  rw [subsystems_after, (orderedDict_refines _).1]
  congr 1
  have gen : ∀ (m : List (Str × Coll α τ)), (∀ e ∈ l, e.1 ∉ m.map Prod.fst) →
      (l.map fun e => Op.set e.1 (c.sub e.2.1 e.2.2)).foldl Op.act m = m ++ l.map fun e => (e.1, c.sub e.2.1 e.2.2) := by
    induction l with
    | nil => intro m _; simp
    | cons e l ih =>
      intro m hm
      rw [List.map_cons, List.nodup_cons] at hl
      rw [List.map_cons, List.foldl_cons, Op.act, if_neg (hm e (by simp)), ih hl.2]
      · simp
      · intro e' he' hmem
        rw [List.map_append, List.mem_append] at hmem
        rcases hmem with hmem | hmem
        · exact hm e' (by simp [he']) hmem
        · simp only [List.map_cons, List.map_nil, List.mem_singleton] at hmem
          exact hl.1 (hmem ▸ List.mem_map_of_mem he')
  simpa [entries] using gen [] (by simp)

/-- C182: a collection made from a collection has its rows and its time. Missing from the property: its titles (`copy_titles`). -/
theorem copy_partial (c : Coll α τ) : c.copy.rows = c.rows ∧ c.copy.time = c.time := by
  obtain ⟨h1, h2, -⟩ := collection_new (c.rows.map fun r => (⟨r, c.time, none⟩ : Traj α τ)) c.time none none
  refine ⟨Eq.trans h1 ?_, Eq.trans h2 ?_⟩
  · simp [Function.comp_def]
  · rfl

/-- C182: the titles are lost: all of them are question marks in the copy. -/
theorem copy_titles (c : Coll α τ) : c.copy.titles = List.replicate c.rows.length "?".toList := by
  obtain ⟨-, -, h3, -⟩ := collection_new (c.rows.map fun r => (⟨r, c.time, none⟩ : Traj α τ)) c.time none none
  refine Eq.trans h3 ?_
  rw [List.length_map]
  apply List.ext_getElem (by simp)
  intro n h1 h2
  have hn : n < c.rows.length := by simpa using h2
  simp [titleOf, hn]

/-- Two rows with one title, and what remains of it in a copy. -/
example : (Coll.new (.rows [⟨[1, 2], none, none⟩, ⟨[3, 4], none, none⟩] none) (some [0, 1]) (some [some "x".toList]) : Coll ℕ (List ℕ)).titles = ["x".toList, "?".toList] := by decide
example : (Coll.new (.rows [⟨[1, 2], none, none⟩, ⟨[3, 4], none, none⟩] none) (some [0, 1]) (some [some "x".toList]) : Coll ℕ (List ℕ)).copy.titles = ["?".toList, "?".toList] := by decide

/-- Two subsystems of three rows. -/
example (c : Coll ℕ (List ℕ)) (hc : c = .new (.rows [⟨[1], none, none⟩, ⟨[2], none, some "y".toList⟩, ⟨[3], none, none⟩] none) none (some [some "x".toList])) :
    (c.subsystems [("B".toList, 1, 3), ("A".toList, 0, 1)]).items = .ok [("B".toList, c.sub 1 3), ("A".toList, c.sub 0 1)] ∧ (c.sub 1 3).titles = ["y".toList, "?".toList] := by
  refine ⟨subsystems_order c _ (by decide), ?_⟩
  rw [(subsystem_slices c 1 3 (by subst hc; exact collection_length _ _ _)).2.1]
  subst hc
  decide

end coll

end CppQED.ExpValues
