import Verif.Spec.TestDriver

/-!
# Lemmas on the configuration of the tests
-/

namespace CppQED.TestDriver
open CppQED.Tridiag CppQED.PyText

theorem bind_ok {α β : Type*} {x : Outcome α} {f : α → Outcome β} {b : β} (h : x.bind f = .ok b) : ∃ a, x = .ok a ∧ f a = .ok b := by
  cases x with
  | ok a => exact ⟨a, rfl, h⟩
  | throw => simp [Outcome.bind] at h
  | undef => simp [Outcome.bind] at h

theorem ok_bind {α β : Type*} (a : α) (f : α → Outcome β) : (Outcome.ok a).bind f = f a := rfl

theorem lower_import : lower importKey = importKey := by decide

theorem isLocal_iff (k : Str) : isLocal k = true ↔ "_local".toList <:+ k := by
  unfold isLocal; exact List.isSuffixOf_iff_suffix

theorem lookup_eq_some_iff {sec : Section} (hn : (sec.map (·.1)).Nodup) (k v : Str) : sec.lookup k = some v ↔ (k, v) ∈ sec := by
  induction sec with
  | nil => simp
  | cons e es ih =>
    obtain ⟨a, b⟩ := e
    simp only [List.map_cons, List.nodup_cons] at hn
    rw [List.lookup_cons]
    by_cases h : k = a
    · subst h
      simp only [beq_self_eq_true, List.mem_cons, Prod.mk.injEq, true_and, Option.some.injEq]
      constructor
      · exact fun h => Or.inl h.symm
      · rintro (h | h)
        · exact h.symm
        · exact absurd (List.mem_map.2 ⟨_, h, rfl⟩) hn.1
    · rw [beq_eq_false_iff_ne.2 h]
      simp only [List.mem_cons, Prod.mk.injEq, h, false_and, false_or]
      exact ih hn.2

theorem lookup_eq_none_iff (sec : Section) (k : Str) : sec.lookup k = none ↔ ∀ v, (k, v) ∉ sec := by
  induction sec with
  | nil => simp
  | cons e es ih =>
    obtain ⟨a, b⟩ := e
    rw [List.lookup_cons]
    by_cases h : k = a
    · subst h
      simp only [beq_self_eq_true, reduceCtorEq, false_iff, not_forall, not_not]
      exact ⟨b, List.mem_cons_self ..⟩
    · rw [beq_eq_false_iff_ne.2 h]
      simp only [List.mem_cons, Prod.mk.injEq, h, false_and, false_or]
      exact ih

theorem option_some {cfg : Config} (hw : WellFormed cfg) (s k v : Str) : option cfg s k = some v ↔ Defined cfg s (lower k) v := by
  unfold option Defined
  cases h : cfg s with
  | none => simp
  | some sec => simp only [Option.bind_some, Option.some.injEq, exists_eq_left', lookup_eq_some_iff (hw s sec h).1]

theorem option_none (cfg : Config) (s k : Str) : option cfg s k = none ↔ ∀ v, ¬ Defined cfg s (lower k) v := by
  unfold option Defined
  cases h : cfg s with
  | none => simp
  | some sec => simp only [Option.bind_some, Option.some.injEq, exists_eq_left', lookup_eq_none_iff]

theorem Defined.unique {cfg : Config} (hw : WellFormed cfg) {s k v w : Str} (h : Defined cfg s k v) (h' : Defined cfg s k w) : v = w := by
  obtain ⟨sec, h1, h2⟩ := h
  obtain ⟨sec', h3, h4⟩ := h'
  rw [h1] at h3
  cases h3
  have hn := (hw s sec h1).1
  have := (lookup_eq_some_iff hn k v).2 h2
  rw [(lookup_eq_some_iff hn k w).2 h4] at this
  exact (Option.some.inj this).symm

theorem Value.unique {cfg : Config} (hw : WellFormed cfg) {s k v w : Str} (h : Value cfg s k v) (h' : Value cfg s k w) : v = w := by
  induction h generalizing w with
  | own h =>
    cases h' with
    | own h' => exact h.unique hw h'
    | imported a => exact absurd h (a _)
  | imported a _ hi _ ih =>
    cases h' with
    | own h' => exact absurd h' (a _)
    | imported _ _ hi' ht =>
      rw [hi.unique hw hi'] at ih
      exact ih ht

/-- One item, on the section. -/
def addItem (sec : Section) (item : Str × Str) : Section := if (sec.lookup (lower item.1)).isNone && !isLocal item.1 then setKey sec (lower item.1) item.2 else sec

theorem foldl_importItem (s : Str) (items : List (Str × Str)) : ∀ (cp : Config) (sec : Section), cp s = some sec →
    items.foldl (importItem s) cp = Function.update cp s (some (items.foldl addItem sec)) := by
  induction items with
  | nil => intro cp sec h; simp only [List.foldl_nil]; rw [← h, Function.update_eq_self]
  | cons e es ih =>
    intro cp sec h
    simp only [List.foldl_cons]
    have : importItem s cp e = Function.update cp s (some (addItem sec e)) := by
      unfold importItem addItem
      have ho : option cp s e.1 = sec.lookup (lower e.1) := by unfold option; rw [h]; rfl
      rw [ho]
      split
      · unfold set; rw [h]; rfl
      · rw [← h, Function.update_eq_self]
    rw [this, ih _ (addItem sec e) (by rw [Function.update_self]), Function.update_idem]

open Classical in
theorem addItem_eq (sec : Section) (k v : Str) (hk : lower k = k) : addItem sec (k, v) = if (∀ w, (k, w) ∉ sec) ∧ ¬ "_local".toList <:+ k then sec ++ [(k, v)] else sec := by
  unfold addItem
  simp only [hk]
  by_cases h1 : ∀ w, (k, w) ∉ sec
  · have hl := (lookup_eq_none_iff sec k).2 h1
    by_cases h2 : "_local".toList <:+ k
    · rw [(isLocal_iff k).2 h2, if_neg (by simp), if_neg (fun h => h.2 h2)]
    · have : isLocal k = false := by rw [Bool.eq_false_iff]; exact fun h => h2 ((isLocal_iff k).1 h)
      rw [this, if_pos (by simp [hl]), if_pos ⟨h1, h2⟩]
      unfold setKey
      rw [hl]; rfl
  · have hx : ¬ (((sec.lookup k).isNone && !isLocal k) = true) := by
      intro h
      rw [Bool.and_eq_true, Option.isNone_iff_eq_none] at h
      exact h1 ((lookup_eq_none_iff sec k).1 h.1)
    rw [if_neg hx, if_neg fun h => h1 h.1]

/-- The section after the import. -/
theorem foldl_addItem (items : List (Str × Str)) : ∀ (sec : Section), (items.map (·.1)).Nodup → (∀ e ∈ items, lower e.1 = e.1) → (sec.map (·.1)).Nodup → (∀ e ∈ sec, lower e.1 = e.1) →
    ((items.foldl addItem sec).map (·.1)).Nodup ∧ (∀ e ∈ items.foldl addItem sec, lower e.1 = e.1) ∧
      ∀ k v, (k, v) ∈ items.foldl addItem sec ↔ (k, v) ∈ sec ∨ (∀ w, (k, w) ∉ sec) ∧ ¬ "_local".toList <:+ k ∧ (k, v) ∈ items := by
  induction items with
  | nil => intro sec _ _ h1 h2; exact ⟨h1, h2, fun k v => by simp⟩
  | cons e es ih =>
    obtain ⟨a, b⟩ := e
    intro sec hn hl h1 h2
    simp only [List.map_cons, List.nodup_cons] at hn
    have ha : lower a = a := hl (a, b) (List.mem_cons_self ..)
    simp only [List.foldl_cons]
    rw [addItem_eq sec a b ha]
    by_cases hc : (∀ w, (a, w) ∉ sec) ∧ ¬ "_local".toList <:+ a
    · rw [if_pos hc]
      have hnew : ((sec ++ [(a, b)]).map (·.1)).Nodup := by
        rw [List.map_append, List.nodup_append]
        refine ⟨h1, by simp, ?_⟩
        intro x hx y hy hxy
        simp only [List.map_cons, List.map_nil, List.mem_singleton] at hy
        subst hy; subst hxy
        obtain ⟨e, he, rfl⟩ := List.mem_map.1 hx
        exact hc.1 e.2 he
      obtain ⟨i1, i2, i3⟩ := ih (sec ++ [(a, b)]) hn.2 (fun e he => hl e (List.mem_cons_of_mem _ he)) hnew (by
        intro e he
        rcases List.mem_append.1 he with h | h
        · exact h2 e h
        · rw [List.mem_singleton.1 h]; exact ha)
      refine ⟨i1, i2, fun k v => ?_⟩
      rw [i3]
      simp only [List.mem_append, List.mem_cons, List.not_mem_nil, or_false, Prod.mk.injEq, not_or, not_and]
      constructor
      · rintro ((h | ⟨rfl, rfl⟩) | ⟨h, h', h''⟩)
        · exact Or.inl h
        · exact Or.inr ⟨hc.1, hc.2, Or.inl ⟨rfl, rfl⟩⟩
        · exact Or.inr ⟨fun w => (h w).1, h', Or.inr h''⟩
      · rintro (h | ⟨h, h', h'' | h''⟩)
        · exact Or.inl (Or.inl h)
        · exact Or.inl (Or.inr h'')
        · refine Or.inr ⟨fun w => ⟨h w, fun hk _ => ?_⟩, h', h''⟩
          subst hk
          exact absurd (List.mem_map.2 ⟨_, h'', rfl⟩) hn.1
    · rw [if_neg hc]
      obtain ⟨i1, i2, i3⟩ := ih sec hn.2 (fun e he => hl e (List.mem_cons_of_mem _ he)) h1 h2
      refine ⟨i1, i2, fun k v => ?_⟩
      rw [i3]
      simp only [List.mem_cons, Prod.mk.injEq]
      constructor
      · rintro (h | ⟨h, h', h''⟩)
        · exact Or.inl h
        · exact Or.inr ⟨h, h', Or.inr h''⟩
      · rintro (h | ⟨h, h', ⟨rfl, rfl⟩ | h''⟩)
        · exact Or.inl h
        · exact absurd ⟨h, h'⟩ hc
        · exact Or.inr ⟨h, h', h''⟩

/-- A section is replaced by another one in which all keys have the same value. -/
theorem value_update {cp : Config} {s : Str} {sec : Section} (hv : ∀ k v, k ≠ importKey → (Value cp s k v ↔ Value (Function.update cp s (some sec)) s k v)) (u k v : Str) (hk : k ≠ importKey) :
    Value cp u k v ↔ Value (Function.update cp s (some sec)) u k v := by
  have hd : ∀ u, u ≠ s → ∀ k v, Defined cp u k v ↔ Defined (Function.update cp s (some sec)) u k v := by
    intro u hu k v
    unfold Defined
    rw [Function.update_of_ne hu]
  constructor
  · intro h
    induction h with
    | @own u k v h =>
      by_cases hu : u = s
      · subst hu; exact (hv k v hk).1 (.own h)
      · exact .own ((hd u hu _ _).1 h)
    | @imported u t k v h hl hi ht ih =>
      by_cases hu : u = s
      · subst hu; exact (hv k v hk).1 (.imported h hl hi ht)
      · exact .imported (fun w hw => h w ((hd u hu _ _).2 hw)) hl ((hd u hu _ _).1 hi) (ih hk)
  · intro h
    induction h with
    | @own u k v h =>
      by_cases hu : u = s
      · subst hu; exact (hv k v hk).2 (.own h)
      · exact .own ((hd u hu _ _).2 h)
    | @imported u t k v h hl hi ht ih =>
      by_cases hu : u = s
      · subst hu; exact (hv k v hk).2 (.imported h hl hi ht)
      · exact .imported (fun w hw => h w ((hd u hu _ _).1 hw)) hl ((hd u hu _ _).2 hi) (ih hk)

/-- What an import does not change. -/
structure Same (cp cp' : Config) : Prop where
  wf : WellFormed cp'
  some : ∀ s, (cp' s).isSome = (cp s).isSome
  imports : ∀ s t, Defined cp' s importKey t → Defined cp s importKey t
  mono : ∀ s k v, k ≠ importKey → Defined cp s k v → Defined cp' s k v
  value : ∀ s k v, k ≠ importKey → (Value cp s k v ↔ Value cp' s k v)

theorem Same.refl {cp : Config} (h : WellFormed cp) : Same cp cp := ⟨h, fun _ => rfl, fun _ _ h => h, fun _ _ _ _ h => h, fun _ _ _ _ => Iff.rfl⟩

theorem Same.trans {a b c : Config} (h : Same a b) (h' : Same b c) : Same a c :=
  ⟨h'.wf, fun s => (h'.some s).trans (h.some s), fun s t x => h.imports s t (h'.imports s t x), fun s k v hk x => h'.mono s k v hk (h.mono s k v hk x), fun s k v hk => (h.value s k v hk).trans (h'.value s k v hk)⟩

theorem value_no_import {cp : Config} {s : Str} (h : ∀ t, ¬ Defined cp s importKey t) (k v : Str) : Value cp s k v ↔ Defined cp s k v := by
  constructor
  · intro h'
    cases h' with
    | own h' => exact h'
    | imported _ _ hi => exact absurd hi (h _)
  · exact .own

theorem import_spec (n : ℕ) : ∀ (cp : Config) (s : Str), WellFormed cp → Ends cp n s → ∃ cp', importSection n cp s = .ok cp' ∧ Same cp cp' ∧ ∀ t, ¬ Defined cp' s importKey t := by
  induction n with
  | zero => intro cp s _ h; cases h
  | succ n ih =>
    intro cp s hw he
    unfold importSection
    have hikey : "import".toList = importKey := rfl
    rw [hikey]
    cases he with
    | last h =>
      rw [(option_none cp s importKey).2 (by rw [lower_import]; exact h)]
      exact ⟨cp, rfl, .refl hw, h⟩
    | @step _ _ t h ht he =>
      rw [(option_some hw s importKey t).2 (by rw [lower_import]; exact h)]
      obtain ⟨cp1, e1, h1, hno⟩ := ih cp t hw he
      simp only [e1, Outcome.bind]
      have ht1 := h1.some t
      rw [ht] at ht1
      obtain ⟨items, hitems⟩ := Option.isSome_iff_exists.1 ht1
      have hs1 := h1.some s
      rw [show (cp s).isSome = true by obtain ⟨sec, a, _⟩ := h; rw [a]; rfl] at hs1
      obtain ⟨sec, hsec⟩ := Option.isSome_iff_exists.1 hs1
      rw [hitems]
      simp only
      rw [foldl_importItem s items cp1 sec hsec]
      have hrem : remove (Function.update cp1 s (some (items.foldl addItem sec))) s importKey = Function.update cp1 s (some ((items.foldl addItem sec).filter fun e => e.1 ≠ importKey)) := by
        unfold remove
        rw [Function.update_self, Function.update_idem, lower_import]
        rfl
      rw [hrem]
      obtain ⟨f1, f2, f3⟩ := foldl_addItem items sec (h1.wf t items hitems).1 (h1.wf t items hitems).2 (h1.wf s sec hsec).1 (h1.wf s sec hsec).2
      set sec2 := (items.foldl addItem sec).filter fun e => e.1 ≠ importKey with hsec2
      have hmem : ∀ k v, (k, v) ∈ sec2 ↔ k ≠ importKey ∧ ((k, v) ∈ sec ∨ (∀ w, (k, w) ∉ sec) ∧ ¬ "_local".toList <:+ k ∧ (k, v) ∈ items) := by
        intro k v
        rw [hsec2, List.mem_filter, f3]
        simp [and_comm]
      have hdef : ∀ k v, Defined (Function.update cp1 s (some sec2)) s k v ↔ (k, v) ∈ sec2 := by
        intro k v
        unfold Defined
        rw [Function.update_self]
        simp
      have hd1 : ∀ k v, Defined cp1 s k v ↔ (k, v) ∈ sec := by
        intro k v; unfold Defined; rw [hsec]; simp
      have hdt : ∀ k v, Defined cp1 t k v ↔ (k, v) ∈ items := by
        intro k v; unfold Defined; rw [hitems]; simp
      have hnoi : ∀ u, ¬ Defined (Function.update cp1 s (some sec2)) s importKey u := by
        intro u hu
        rw [hdef, hmem] at hu
        exact hu.1 rfl
      have hwf : WellFormed (Function.update cp1 s (some sec2)) := by
        intro u sec' hu
        by_cases hus : u = s
        · subst hus
          rw [Function.update_self] at hu
          cases hu
          refine ⟨?_, fun e he => f2 e (List.mem_filter.1 he).1⟩
          exact f1.sublist (List.filter_sublist.map _)
        · rw [Function.update_of_ne hus] at hu
          exact h1.wf u sec' hu
      have hval : ∀ k v, k ≠ importKey → (Value cp1 s k v ↔ Value (Function.update cp1 s (some sec2)) s k v) := by
        intro k v hk
        rw [value_no_import hnoi, hdef, hmem, ← h1.value s k v hk]
        constructor
        · intro hv
          refine ⟨hk, ?_⟩
          cases hv with
          | own hv => exact Or.inl ((hd1 k v).1 (h1.mono s k v hk hv))
          | @imported _ t' _ _ hn hl hi hv =>
            rw [hi.unique hw h, h1.value t k v hk, value_no_import hno, hdt] at hv
            by_cases hx : ∃ w, (k, w) ∈ sec
            · obtain ⟨w, hw'⟩ := hx
              have h5 : Value cp s k w := (h1.value s k w hk).2 (.own ((hd1 k w).2 hw'))
              have h6 : Value cp s k v := .imported hn hl h ((h1.value t k v hk).2 (.own ((hdt k v).2 hv)))
              rw [h6.unique hw h5]
              exact Or.inl hw'
            · exact Or.inr ⟨fun w hw' => hx ⟨w, hw'⟩, hl, hv⟩
        · rintro ⟨-, hv | ⟨hn, hl, hv⟩⟩
          · exact (h1.value s k v hk).2 (.own ((hd1 k v).2 hv))
          · refine .imported (fun w hw' => hn w ((hd1 k w).1 (h1.mono s k w hk hw'))) hl h ((h1.value t k v hk).2 (.own ((hdt k v).2 hv)))
      refine ⟨_, rfl, h1.trans ⟨hwf, ?_, ?_, ?_, fun u k v hk => value_update hval u k v hk⟩, hnoi⟩
      · intro u
        by_cases hus : u = s
        · subst hus; rw [Function.update_self, hsec]; rfl
        · rw [Function.update_of_ne hus]
      · intro u v hu
        by_cases hus : u = s
        · subst hus; exact absurd hu (hnoi v)
        · unfold Defined at hu ⊢; rwa [Function.update_of_ne hus] at hu
      · intro u k v hk hu
        by_cases hus : u = s
        · subst hus
          rw [hdef, hmem]
          exact ⟨hk, Or.inl ((hd1 k v).1 hu)⟩
        · unfold Defined at hu ⊢; rwa [Function.update_of_ne hus]

/-- An import that succeeds is along a chain that ends. -/
theorem ends_of_import (n : ℕ) : ∀ (cp : Config) (s : Str) (cp' : Config), WellFormed cp → importSection n cp s = .ok cp' → Ends cp n s := by
  induction n with
  | zero => intro cp s cp' _ h; simp [importSection] at h
  | succ n ih =>
    intro cp s cp' hw h
    unfold importSection at h
    have hikey : "import".toList = importKey := rfl
    rw [hikey] at h
    cases ho : option cp s importKey with
    | none =>
      rw [option_none, lower_import] at ho
      exact .last ho
    | some t =>
      rw [ho] at h
      simp only at h
      rw [option_some hw, lower_import] at ho
      obtain ⟨cp1, h1, h2⟩ := bind_ok h
      have he := ih cp t cp1 hw h1
      obtain ⟨cp1', h3, h4, -⟩ := import_spec n cp t hw he
      rw [h1] at h3
      cases h3
      refine .step ho ?_ he
      rw [← h4.some t]
      cases hc : cp1 t with
      | none => rw [hc] at h2; simp at h2
      | some _ => rfl

theorem getOption_ok {limit : ℕ} {cp cp' : Config} {s k : Str} {d : Option Str} {r : Bool} {v : Option Str} (h : getOption limit cp s k d r = .ok (v, cp')) : importSection limit cp s = .ok cp' := by
  unfold getOption at h
  obtain ⟨c, h1, h2⟩ := bind_ok h
  cases ho : option c s k with
  | some w => rw [ho] at h2; simp only [Outcome.ok.injEq, Prod.mk.injEq] at h2; rw [h1, h2.2]
  | none =>
    rw [ho] at h2
    cases r with
    | true => simp at h2
    | false => simp only [Bool.false_eq_true, if_false, Outcome.ok.injEq, Prod.mk.injEq] at h2; rw [h1, h2.2]

/-- Every history of queries leaves the meaning of the configuration the same. -/
theorem Reachable.same {limit : ℕ} {cfg cp : Config} (hw : WellFormed cfg) (h : Reachable limit cfg cp) : Same cfg cp := by
  induction h with
  | init => exact .refl hw
  | query _ hq ih =>
    have h1 := getOption_ok hq
    obtain ⟨cp1, h2, h3, -⟩ := import_spec limit _ _ ih.wf (ends_of_import limit _ _ _ ih.wf h1)
    rw [h1] at h2
    cases h2
    exact ih.trans h3

theorem Ends.of_same {cfg cp : Config} (h : Same cfg cp) (hw : WellFormed cfg) {n : ℕ} {s : Str} (he : Ends cfg n s) : Ends cp n s := by
  induction he with
  | last h' => exact .last fun t ht => h' t (h.imports _ _ ht)
  | @step n s t h' ht _ ih =>
    by_cases hx : ∃ u, Defined cp s importKey u
    · obtain ⟨u, hu⟩ := hx
      have := (h.imports _ _ hu).unique hw h'
      subst this
      exact .step hu (by rw [h.some, ht]) ih
    · exact .last fun u hu => hx ⟨u, hu⟩

/-- Sections whose chain of imports does not end keep their import. -/
theorem Reachable.endless {limit : ℕ} {cfg cp : Config} (hw : WellFormed cfg) (h : Reachable limit cfg cp) : ∀ n s, Ends cp n s → ∃ m, Ends cfg m s := by
  induction h with
  | init => exact fun n s h => ⟨n, h⟩
  | @query cp cp' s0 _ _ _ _ hr hq ih =>
    have h1 := getOption_ok hq
    have hs := hr.same hw
    have key : ∀ n, ∀ (cp cp' : Config) (s : Str), WellFormed cp → importSection n cp s = .ok cp' → ∀ m u, Ends cp' m u → ∃ l, Ends cp l u := by
      intro n
      induction n with
      | zero => intro cp s cp' _ h; simp [importSection] at h
      | succ n ihn =>
        intro cp cp' s hw h
        have hend := ends_of_import (n + 1) cp s cp' hw h
        unfold importSection at h
        have hikey : "import".toList = importKey := rfl
        rw [hikey] at h
        cases ho : option cp s importKey with
        | none => rw [ho] at h; simp only [Outcome.ok.injEq] at h; subst h; exact fun m u hu => ⟨m, hu⟩
        | some t =>
          rw [ho] at h
          simp only at h
          obtain ⟨cp1, h1, h2⟩ := bind_ok h
          cases hc : cp1 t with
          | none => rw [hc] at h2; simp at h2
          | some items =>
            rw [hc] at h2
            simp only [Outcome.ok.injEq] at h2
            have hother : ∀ u, u ≠ s → cp' u = cp1 u := by
              intro u hu
              rw [← h2]
              unfold remove
              rw [Function.update_of_ne hu]
              clear h2 hc
              induction items using List.reverseRecOn with
              | nil => rfl
              | append_singleton l a ih =>
                rw [List.foldl_append, List.foldl_cons, List.foldl_nil]
                unfold importItem
                split
                · unfold set; rw [Function.update_of_ne hu]; exact ih
                · exact ih
            have h1s : Same cp cp1 := by
              obtain ⟨cp1', h3, h4, -⟩ := import_spec n cp t hw (ends_of_import n cp t cp1 hw h1)
              rw [h1] at h3; cases h3; exact h4
            have h2s : Same cp cp' := by
              obtain ⟨cp1', h3, h4, -⟩ := import_spec (n + 1) cp s hw hend
              rw [show importSection (n + 1) cp s = .ok cp' from by rw [importSection, hikey, ho]; simp only [h1, Outcome.bind, hc, h2]] at h3
              cases h3; exact h4
            intro m u hu
            induction hu with
            | @last m u h' =>
              by_cases hus : u = s
              · subst hus; exact ⟨_, hend⟩
              · refine ihn cp cp1 t hw h1 1 u (.last fun v hv => h' v ?_)
                unfold Defined at hv ⊢; rwa [hother u hus]
            | @step m u v h' hv _ ih =>
              obtain ⟨l, hl⟩ := ih
              exact ⟨l + 1, .step (h2s.imports _ _ h') (by rw [← h2s.some, hv]) hl⟩
    intro n u hu
    obtain ⟨m, hm⟩ := key limit cp cp' s0 hs.wf h1 n u hu
    exact ih m u hm

end CppQED.TestDriver
