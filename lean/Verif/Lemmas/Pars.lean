import Verif.Spec.Pars
import Mathlib.Tactic

/-! # The parameter table -/

namespace CppQED.Pars
open CppQED.Spec

variable {V : Type}

/-- Invariant of the tables made by a program. -/
structure Inv (t : Table V) : Prop where
  nodup : (t.map Prod.fst).Nodup
  neg : ∀ (i : ℕ) (n : Str) (p : ℕ), t[i]? = some (n, Kind.negated p) → ∃ m b, t[p]? = some (m, Kind.bool b) ∧ n = noPrefix ++ m
  bools : ∀ (p : ℕ) (m : Str) (b : Bool), t[p]? = some (m, Kind.bool b) → ∃ i : ℕ, t[i]? = some (noPrefix ++ m, Kind.negated p)

theorem findSubscript_none {t : Table V} {s : Str} : findSubscript t s = none ↔ s ∉ t.map Prod.fst := by
  unfold findSubscript
  rw [List.findIdx?_eq_none_iff]
  constructor
  · intro h hs
    obtain ⟨b, hb, rfl⟩ := List.mem_map.1 hs
    simpa using h b hb
  · intro h b hb
    simp only [decide_eq_false_iff_not]
    rintro rfl
    exact h (List.mem_map_of_mem hb)

theorem addKind_eq {t t' : Table V} {s : Str} {k : Kind V} : addKind t s k = some t' ↔ s ∉ t.map Prod.fst ∧ t' = t ++ [(s, k)] := by
  unfold addKind
  rw [← findSubscript_none]
  by_cases h : findSubscript t s = none
  · simp [h, eq_comm]
  · rw [if_neg (by simpa [Option.isNone_iff_eq_none] using h)]; simp [h]

theorem addKind_none {t : Table V} {s : Str} {k : Kind V} : addKind t s k = none ↔ s ∈ t.map Prod.fst := by
  unfold addKind
  by_cases h : findSubscript t s = none
  · rw [if_pos (by simp [h])]; simpa using findSubscript_none.1 h
  · rw [if_neg (by simpa [Option.isNone_iff_eq_none] using h)]
    simp only [true_iff]
    by_contra hs
    exact h (findSubscript_none.2 hs)

theorem getElem?_snoc {α : Type} (t : List α) (b : α) (i : ℕ) : (t ++ [b])[i]? = if i < t.length then t[i]? else if i = t.length then some b else none := by
  rw [List.getElem?_append]
  split_ifs with h1 h2
  · rfl
  · subst h2; simp
  · rw [List.getElem?_eq_none]; simp; omega

theorem lt_of_get {α : Type} {t : List α} {i : ℕ} {a : α} (h : t[i]? = some a) : i < t.length := by
  by_contra h'
  rw [List.getElem?_eq_none (by omega)] at h
  cases h

theorem Inv.push {t : Table V} (h : Inv t) {s : Str} {k : Kind V} (hs : s ∉ t.map Prod.fst) (hk : ∀ p, k ≠ .negated p) (hb : ∀ b, k ≠ .bool b) : Inv (t ++ [(s, k)]) := by
  refine ⟨?_, fun i n p hi => ?_, fun p m b hp => ?_⟩
  · rw [List.map_append, List.nodup_append]
    refine ⟨h.nodup, by simp, fun a ha b hb => ?_⟩
    simp only [List.map_cons, List.map_nil, List.mem_singleton] at hb
    rintro rfl; exact hs (hb ▸ ha)
  · rw [getElem?_snoc] at hi
    split_ifs at hi with h1 h2
    · obtain ⟨m, b, hm, e⟩ := h.neg i n p hi
      exact ⟨m, b, by rw [List.getElem?_append_left (lt_of_get hm)]; exact hm, e⟩
    · simp only [Option.some.injEq, Prod.mk.injEq] at hi; exact absurd hi.2 (hk p)
  · rw [getElem?_snoc] at hp
    split_ifs at hp with h1 h2
    · obtain ⟨i, hi⟩ := h.bools p m b hp
      exact ⟨i, by rw [List.getElem?_append_left (lt_of_get hi)]; exact hi⟩
    · simp only [Option.some.injEq, Prod.mk.injEq] at hp; exact absurd hp.2 (hb b)

theorem Inv.pushBool {t : Table V} (h : Inv t) {s : Str} {v : Bool} (hs : s ∉ t.map Prod.fst) (hs' : noPrefix ++ s ∉ (t ++ [(s, Kind.bool v)]).map Prod.fst) :
    Inv (t ++ [(s, Kind.bool v)] ++ [(noPrefix ++ s, Kind.negated t.length)]) := by
  refine ⟨?_, fun i n p hi => ?_, fun p m b hp => ?_⟩
  · rw [List.map_append, List.nodup_append]
    refine ⟨?_, by simp, fun a ha b hb => ?_⟩
    · rw [List.map_append, List.nodup_append]
      refine ⟨h.nodup, by simp, fun a ha b hb => ?_⟩
      simp only [List.map_cons, List.map_nil, List.mem_singleton] at hb
      rintro rfl; exact hs (hb ▸ ha)
    · simp only [List.map_cons, List.map_nil, List.mem_singleton] at hb
      rintro rfl; exact hs' (hb ▸ ha)
  · rw [getElem?_snoc, getElem?_snoc] at hi
    simp only [List.length_append, List.length_cons, List.length_nil] at hi
    split_ifs at hi with h1 h2 h3 h4
    · obtain ⟨m, b, hm, e⟩ := h.neg i n p hi
      refine ⟨m, b, ?_, e⟩
      have := lt_of_get hm
      rw [getElem?_snoc, getElem?_snoc, if_pos (by simp; omega), if_pos this]; exact hm
    · simp only [Option.some.injEq, Prod.mk.injEq] at hi; exact absurd hi.2 (by simp)
    · simp only [Option.some.injEq, Prod.mk.injEq, Kind.negated.injEq] at hi
      obtain ⟨rfl, rfl⟩ := hi
      exact ⟨s, v, by rw [getElem?_snoc, getElem?_snoc]; simp, rfl⟩
  · rw [getElem?_snoc, getElem?_snoc] at hp
    simp only [List.length_append, List.length_cons, List.length_nil] at hp
    split_ifs at hp with h1 h2 h3 h4
    · obtain ⟨i, hi⟩ := h.bools p m b hp
      refine ⟨i, ?_⟩
      have := lt_of_get hi
      rw [getElem?_snoc, getElem?_snoc, if_pos (by simp; omega), if_pos this]; exact hi
    · simp only [Option.some.injEq, Prod.mk.injEq, Kind.bool.injEq] at hp
      obtain ⟨rfl, rfl⟩ := hp
      exact ⟨t.length + 1, by rw [getElem?_snoc]; simp [h3]⟩
    · simp only [Option.some.injEq, Prod.mk.injEq] at hp; exact absurd hp.2 (by simp)

theorem inv_of_built {t : Table V} (h : Built t) : Inv t := by
  induction h with
  | nil => exact ⟨by simp, by simp, by simp⟩
  | add _ s rd v e ih =>
    obtain ⟨h1, rfl⟩ := addKind_eq.1 e
    exact ih.push h1 (by simp) (by simp)
  | addBool _ s v e ih =>
    unfold addBool at e
    split at e
    · simp at e
    · rename_i t1 e1
      split at e
      · simp at e
      · rename_i t2 e2
        simp only [Prod.mk.injEq, and_true] at e
        subst e
        obtain ⟨h1, rfl⟩ := addKind_eq.1 e1
        obtain ⟨h2, rfl⟩ := addKind_eq.1 e2
        exact ih.pushBool h1 h2
  | addTitle _ s mod e ih =>
    obtain ⟨h1, rfl⟩ := addKind_eq.1 e
    exact ih.push h1 (by simp) (by simp)

/-! ## Assignment by name -/

def put : Kind V → Val V → Kind V
  | .typed rd _, .typed v => .typed rd v
  | .bool _, .bool b => .bool b
  | k, _ => k

def setVal (t : Table V) (x : Str) (w : Val V) : Table V := t.map fun b => if b.1 = x then (b.1, put b.2 w) else b

theorem setVal_names (t : Table V) (x : Str) (w : Val V) : (setVal t x w).map Prod.fst = t.map Prod.fst := by
  unfold setVal
  rw [List.map_map]
  refine List.map_congr_left fun b _ => ?_
  simp only [Function.comp]; split_ifs <;> rfl

theorem setVal_get (t : Table V) (x : Str) (w : Val V) (i : ℕ) : (setVal t x w)[i]? = (t[i]?).map fun b => if b.1 = x then (b.1, put b.2 w) else b := by
  unfold setVal; rw [List.getElem?_map]

theorem put_negated (k : Kind V) (w : Val V) (p : ℕ) : put k w = .negated p ↔ k = .negated p := by
  cases k <;> cases w <;> simp [put]

theorem put_bool (k : Kind V) (w : Val V) : (∃ b, put k w = .bool b) ↔ ∃ b, k = .bool b := by
  cases k <;> cases w <;> simp [put]

theorem Inv.setVal {t : Table V} (h : Inv t) (x : Str) (w : Val V) : Inv (setVal t x w) := by
  refine ⟨by rw [setVal_names]; exact h.nodup, fun i n p hi => ?_, fun p m b hp => ?_⟩
  · rw [setVal_get] at hi
    obtain ⟨⟨n', k⟩, h1, h2⟩ := Option.map_eq_some_iff.1 hi
    have hk : n' = n ∧ k = .negated p := by
      dsimp only at h2
      split_ifs at h2
      · simp only [Prod.mk.injEq, put_negated] at h2; exact h2
      · simpa using h2
    obtain ⟨rfl, rfl⟩ := hk
    obtain ⟨m, b, hm, e⟩ := h.neg i n' p h1
    rw [setVal_get, hm]
    simp only [Option.map_some]
    split_ifs
    · obtain ⟨b', hb'⟩ := (put_bool (.bool b) w).2 ⟨b, rfl⟩
      exact ⟨m, b', by rw [hb'], e⟩
    · exact ⟨m, b, rfl, e⟩
  · rw [setVal_get] at hp
    obtain ⟨⟨m', k⟩, h1, h2⟩ := Option.map_eq_some_iff.1 hp
    have hk : m' = m ∧ ∃ b', k = .bool b' := by
      dsimp only at h2
      split_ifs at h2
      · simp only [Prod.mk.injEq] at h2; exact ⟨h2.1, (put_bool k w).1 ⟨b, h2.2⟩⟩
      · simp only [Prod.mk.injEq] at h2; exact ⟨h2.1, b, h2.2⟩
    obtain ⟨rfl, b', rfl⟩ := hk
    obtain ⟨i, hi⟩ := h.bools p m' b' h1
    refine ⟨i, ?_⟩
    rw [setVal_get, hi]
    simp only [Option.map_some, put]
    split_ifs <;> rfl

theorem find_of_get {t : Table V} (h : (t.map Prod.fst).Nodup) {i : ℕ} {x : Str} {k : Kind V} (hi : t[i]? = some (x, k)) : (t.find? fun b => decide (b.1 = x)) = some (x, k) ∧ findSubscript t x = some i := by
  induction t generalizing i with
  | nil => simp at hi
  | cons b t ih =>
    rw [List.map_cons, List.nodup_cons] at h
    cases i with
    | zero =>
      simp only [List.getElem?_cons_zero, Option.some.injEq] at hi
      subst hi
      simp [findSubscript, List.findIdx?_cons]
    | succ i =>
      rw [List.getElem?_cons_succ] at hi
      have hne : b.1 ≠ x := by
        intro e
        exact h.1 (List.mem_map.2 ⟨_, List.mem_of_getElem? hi, e.symm⟩)
      obtain ⟨h1, h2⟩ := ih h.2 hi
      refine ⟨by rw [List.find?_cons]; simp [hne, h1], ?_⟩
      unfold findSubscript at h2 ⊢
      rw [List.findIdx?_cons]
      simp [hne, h2]

theorem get_of_value {t : Table V} {x : Str} {v : Val V} (h : valueOf t x = some v) : ∃ (i : ℕ) (k : Kind V), t[i]? = some (x, k) ∧ ((∃ rd w, k = Kind.typed rd w ∧ v = .typed w) ∨ ∃ b, k = Kind.bool b ∧ v = .bool b) := by
  unfold valueOf at h
  split at h
  · rename_i n rd w e
    have hn : n = x := by simpa using List.find?_some e
    obtain ⟨i, hi⟩ := List.getElem?_of_mem (List.mem_of_find?_eq_some e)
    exact ⟨i, _, hn ▸ hi, Or.inl ⟨rd, w, rfl, by simpa using h.symm⟩⟩
  · rename_i n b e
    have hn : n = x := by simpa using List.find?_some e
    obtain ⟨i, hi⟩ := List.getElem?_of_mem (List.mem_of_find?_eq_some e)
    exact ⟨i, _, hn ▸ hi, Or.inr ⟨b, rfl, by simpa using h.symm⟩⟩
  · simp at h

theorem valueOf_set_ne {t : Table V} (x y : Str) (w : Val V) (h : y ≠ x) : valueOf (setVal t x w) y = valueOf t y := by
  have : (setVal t x w).find? (fun b => decide (b.1 = y)) = t.find? fun b => decide (b.1 = y) := by
    unfold setVal
    induction t with
    | nil => rfl
    | cons b t ih =>
      rw [List.map_cons, List.find?_cons, List.find?_cons]
      by_cases hb : b.1 = x
      · have : b.1 ≠ y := fun e => h (e ▸ hb)
        rw [if_pos hb]
        simp [this, ih]
      · rw [if_neg hb, ih]
  unfold valueOf
  rw [this]

theorem valueOf_get {t : Table V} (h : (t.map Prod.fst).Nodup) {i : ℕ} {x : Str} {k : Kind V} (hi : t[i]? = some (x, k)) :
    valueOf t x = match k with
      | .typed _ v => some (.typed v)
      | .bool b => some (.bool b)
      | _ => none := by
  unfold valueOf
  rw [(find_of_get h hi).1]
  cases k <;> rfl

/-- `setVal` of a unique name as change at a position. -/
theorem setVal_eq {t : Table V} (h : (t.map Prod.fst).Nodup) {i : ℕ} {x : Str} {k : Kind V} (hi : t[i]? = some (x, k)) (w : Val V) : setVal t x w = t.set i (x, put k w) := by
  apply List.ext_getElem?
  intro j
  rw [setVal_get, List.getElem?_set]
  by_cases hj : i = j
  · subst hj
    rw [if_pos rfl, if_pos (lt_of_get hi), hi]; simp
  · rw [if_neg hj]
    cases e : t[j]? with
    | none => rfl
    | some b =>
      obtain ⟨n, k'⟩ := b
      have : n ≠ x := by
        rintro rfl
        have h1 := (find_of_get h hi).2
        have h2 := (find_of_get h e).2
        rw [h1] at h2
        exact hj (Option.some.inj h2)
      simp [this]

theorem modify_eq {t : Table V} (h : (t.map Prod.fst).Nodup) {i : ℕ} {x : Str} {b : Bool} (hi : t[i]? = some (x, Kind.bool b)) :
    (t.modify i fun b => (b.1, assignFalse b.2)) = setVal t x (.bool false) := by
  rw [setVal_eq h hi]
  apply List.ext_getElem?
  intro j
  rw [List.getElem?_modify, List.getElem?_set]
  by_cases hj : i = j
  · subst hj; rw [if_pos rfl, if_pos (lt_of_get hi), hi]; simp [put, assignFalse]
  · simp [hj]

/-! ## One step of the loop -/

theorem dropWhile_space {w rest : Str} {c : Char} {w' : Str} (hw : w = c :: w') (hc : isSpace c = false) : (' ' :: w ++ rest).dropWhile isSpace = w ++ rest := by
  subst hw
  have : isSpace ' ' = true := by decide
  simp [List.dropWhile_cons, this, hc]

theorem takeWhile_word {w rest : Str} (hw : ∀ c ∈ w, isSpace c = false) (hr : rest = [] ∨ ∃ r, rest = ' ' :: r) :
    (w ++ rest).takeWhile (fun c => !isSpace c) = w ∧ (w ++ rest).dropWhile (fun c => !isSpace c) = rest := by
  have hsp : isSpace ' ' = true := by decide
  induction w with
  | nil =>
    rcases hr with rfl | ⟨r, rfl⟩
    · simp
    · simp [List.takeWhile_cons, List.dropWhile_cons, hsp]
  | cons c w ih =>
    obtain ⟨h1, h2⟩ := ih fun c hc => hw c (List.mem_cons_of_mem _ hc)
    have hc := hw c (List.mem_cons_self ..)
    rw [List.cons_append, List.takeWhile_cons, List.dropWhile_cons]
    simp [hc, h1, h2]

/-- The word `pre++x` at the beginning of the line. -/
theorem loop_word (pre : Str) (t : Table V) {x rest : Str} (hx : GoodName pre x) (hr : rest = [] ∨ ∃ r, rest = ' ' :: r) :
    loop pre t (' ' :: (pre ++ x) ++ rest) = match findSubscript t x with
      | none => .abort
      | some i => match read t i rest with
        | .fail => .abort
        | .unrecognised => .abort
        | .ok t' line' => loop pre t' line' := by
  obtain ⟨c, w', hw⟩ := List.exists_cons_of_ne_nil (show pre ++ x ≠ [] by simp [hx.2.1])
  have e1 := dropWhile_space (rest := rest) hw (hx.1 c (by rw [hw]; exact List.mem_cons_self ..))
  obtain ⟨e2, e3⟩ := takeWhile_word (rest := rest) hx.1 hr
  rw [loop]
  simp only [e1, e2, e3]
  rw [dif_neg (by simp [hw]), if_neg (by simp), List.drop_left, if_neg (show x ≠ helpWord from hx.2.2.1), if_neg (show x ≠ versionWord from hx.2.2.2)]
  cases findSubscript t x with
  | none => rfl
  | some i =>
    simp only
    split <;> rename_i e <;> rw [e1, e3] at e <;> rw [e]

theorem sub_of_get {t : Table V} (h : Inv t) {i : ℕ} {x : Str} {k : Kind V} (hi : t[i]? = some (x, k)) : findSubscript t x = some i := (find_of_get h.nodup hi).2

theorem goodName_no {pre x : Str} (h : GoodName pre x) : GoodName pre (noPrefix ++ x) := by
  refine ⟨fun c hc => ?_, by simp [noPrefix], by simp [noPrefix], by simp [noPrefix]⟩
  rw [List.mem_append, List.mem_append] at hc
  rcases hc with hc | hc | hc
  · exact h.1 c (List.mem_append_left _ hc)
  · simp only [noPrefix, List.mem_cons, List.not_mem_nil, or_false] at hc
    rcases hc with rfl | rfl | rfl <;> decide
  · exact h.1 c (List.mem_append_right _ hc)

/-- The parameter set by an item, and the value. -/
def _root_.CppQED.Spec.Setting.name : Setting V → Str
  | .on x => x
  | .off x => x
  | .value x _ _ => x

def _root_.CppQED.Spec.Setting.val : Setting V → Val V
  | .on _ => .bool true
  | .off _ => .bool false
  | .value _ _ v => .typed v

/-- One item. -/
theorem loop_setting (pre : Str) {t : Table V} (h : Inv t) (s : Setting V) (hs : s.Valid t pre) {rest : Str} (hr : rest = [] ∨ ∃ r, rest = ' ' :: r) :
    loop pre t (lineOf (s.words pre) ++ rest) = loop pre (setVal t s.name s.val) rest := by
  cases s with
  | on x =>
    obtain ⟨hx, b, hb⟩ := hs
    obtain ⟨i, k, hi, hk⟩ := get_of_value hb
    obtain ⟨b', rfl⟩ : ∃ b', k = .bool b' := by
      rcases hk with ⟨_, _, _, e⟩ | ⟨b', e, _⟩
      · cases e
      · exact ⟨b', e⟩
    have := loop_word pre t hx hr
    simp only [Setting.words, lineOf, List.flatMap_cons, List.flatMap_nil, List.append_nil]
    rw [this, sub_of_get h hi]
    simp only [read, hi]
    rw [Setting.name, Setting.val, setVal_eq h.nodup hi]
    rfl
  | off x =>
    obtain ⟨hx, b, hb⟩ := hs
    obtain ⟨p, k, hi, hk⟩ := get_of_value hb
    obtain ⟨b', rfl⟩ : ∃ b', k = .bool b' := by
      rcases hk with ⟨_, _, _, e⟩ | ⟨b', e, _⟩
      · cases e
      · exact ⟨b', e⟩
    obtain ⟨i, hn⟩ := h.bools p x b' hi
    have := loop_word pre t (goodName_no hx) hr
    simp only [Setting.words, lineOf, List.flatMap_cons, List.flatMap_nil, List.append_nil]
    rw [List.append_assoc pre, this, sub_of_get h hn]
    simp only [read, hn]
    rw [modify_eq h.nodup hi]
    rfl
  | value x w v =>
    obtain ⟨hx, ⟨rd, v₀, hm, hrd⟩, c, w', hw, hc⟩ := hs
    obtain ⟨i, hi⟩ := List.getElem?_of_mem hm
    have := loop_word (rest := ' ' :: w ++ rest) pre t hx (Or.inr ⟨_, rfl⟩)
    simp only [Setting.words, lineOf, List.flatMap_cons, List.flatMap_nil, List.append_nil]
    rw [List.append_assoc, this, sub_of_get h hi]
    simp only [read, hi]
    rw [dropWhile_space hw hc, if_neg (by simp [hw]), hrd rest hr]
    simp only [List.drop_left]
    rw [Setting.name, Setting.val, setVal_eq h.nodup hi]
    rfl

end CppQED.Pars
