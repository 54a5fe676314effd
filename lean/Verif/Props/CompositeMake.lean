import Verif.Model.Composite
import Mathlib.Analysis.Complex.Basic
import Mathlib.Data.List.MinMax

/-!
# Properties C32, C33, C67: construction and frequencies of composite systems
-/

namespace CppQED.Spec

/-- The interactions `acts` attach the free `f` to the axis `idx`: one of them has `idx` as its `i`-th axis and `f` as its `i`-th free. -/
def Leg (acts : List Composite.Act) (idx f : ℕ) : Prop := ∃ act ∈ acts, ∃ i : ℕ, act.axes[i]? = some idx ∧ act.frees[i]? = some f

end CppQED.Spec

namespace CppQED.Composite
open CppQED.Spec

/-! ## C32 -/

theorem fillAct_ok (frees : List ℕ) : ∀ (axes : List ℕ) (i : ℕ) (res res' : ℕ → Option ℕ), fillAct frees axes i res = .ok res' →
    (∀ idx f, res idx = some f → res' idx = some f) ∧ (∀ m idx, axes[m]? = some idx → res' idx = some (frees.getD (i + m) 0)) ∧
      (∀ idx f, res' idx = some f → res idx = some f ∨ ∃ m, axes[m]? = some idx ∧ f = frees.getD (i + m) 0) := by
  intro axes
  induction axes with
  | nil =>
    intro i res res' h
    simp only [fillAct, Except.ok.injEq] at h
    subst h
    exact ⟨fun _ _ h => h, fun m idx h => by simp at h, fun idx f h => Or.inl h⟩
  | cons a axes ih =>
    intro i res res' h
    unfold fillAct at h
    cases ha : res a with
    | some f =>
      rw [ha] at h
      simp only at h
      split at h
      · cases h
      · rename_i hf
        have hf : f = frees.getD i 0 := not_not.1 hf
        obtain ⟨h1, h2, h3⟩ := ih _ _ _ h
        refine ⟨h1, ?_, ?_⟩
        · intro m idx hm
          cases m with
          | zero =>
            simp only [List.getElem?_cons_zero, Option.some.injEq] at hm
            subst hm
            rw [h1 _ _ ha, hf, Nat.add_zero]
          | succ m => rw [h2 m idx (by simpa using hm)]; congr 2; omega
        · intro idx g hg
          rcases h3 idx g hg with h | ⟨m, hm, rfl⟩
          · exact Or.inl h
          · exact Or.inr ⟨m + 1, by simpa using hm, by congr 1; omega⟩
    | none =>
      rw [ha] at h
      simp only at h
      obtain ⟨h1, h2, h3⟩ := ih _ _ _ h
      refine ⟨?_, ?_, ?_⟩
      · intro idx f hf
        apply h1
        rw [Function.update_of_ne]
        · exact hf
        · rintro rfl; rw [ha] at hf; cases hf
      · intro m idx hm
        cases m with
        | zero =>
          simp only [List.getElem?_cons_zero, Option.some.injEq] at hm
          subst hm
          exact h1 _ _ (by simp)
        | succ m => rw [h2 m idx (by simpa using hm)]; congr 2; omega
      · intro idx g hg
        rcases h3 idx g hg with h | ⟨m, hm, rfl⟩
        · by_cases hi : idx = a
          · subst hi
            rw [Function.update_self, Option.some.injEq] at h
            exact Or.inr ⟨0, by simp, by rw [Nat.add_zero]; exact h.symm⟩
          · rw [Function.update_of_ne hi] at h; exact Or.inl h
        · exact Or.inr ⟨m + 1, by simpa using hm, by congr 1; omega⟩

theorem fillAct_error (frees : List ℕ) : ∀ (axes : List ℕ) (i : ℕ) (res : ℕ → Option ℕ) (e : ℕ × ℕ), fillAct frees axes i res = .error e →
    ∃ m, e.2 = i + m ∧ axes[m]? = some e.1 ∧ ∃ f, f ≠ frees.getD (i + m) 0 ∧ (res e.1 = some f ∨ ∃ m', axes[m']? = some e.1 ∧ f = frees.getD (i + m') 0) := by
  intro axes
  induction axes with
  | nil => intro i res e h; simp [fillAct] at h
  | cons a axes ih =>
    intro i res e h
    unfold fillAct at h
    cases ha : res a with
    | some f =>
      rw [ha] at h
      simp only at h
      split at h
      · rename_i hf
        simp only [Except.error.injEq] at h
        subst h
        exact ⟨0, by simp, by simp, f, by simpa using hf, Or.inl ha⟩
      · obtain ⟨m, h1, h2, g, h3, h4⟩ := ih _ _ _ h
        refine ⟨m + 1, by omega, by simpa using h2, g, ?_, ?_⟩
        · rwa [show i + (m + 1) = i + 1 + m by omega]
        · rcases h4 with h4 | ⟨m', h4, h5⟩
          · exact Or.inl h4
          · exact Or.inr ⟨m' + 1, by simpa using h4, by rw [h5]; congr 1; omega⟩
    | none =>
      rw [ha] at h
      simp only at h
      obtain ⟨m, h1, h2, g, h3, h4⟩ := ih _ _ _ h
      refine ⟨m + 1, by omega, by simpa using h2, g, ?_, ?_⟩
      · rwa [show i + (m + 1) = i + 1 + m by omega]
      · rcases h4 with h4 | ⟨m', h4, h5⟩
        · by_cases hi : e.1 = a
          · rw [hi, Function.update_self, Option.some.injEq] at h4
            exact Or.inr ⟨0, by simp [hi], by rw [Nat.add_zero]; exact h4.symm⟩
          · rw [Function.update_of_ne hi] at h4; exact Or.inl h4
        · exact Or.inr ⟨m' + 1, by simpa using h4, by rw [h5]; congr 1; omega⟩

/-- In every interaction there are as many frees as axes (`std::array<Frees,RANK>` in the code). -/
def SizesOK (acts : List Act) : Prop := ∀ act ∈ acts, act.frees.length = act.axes.length

theorem frees_get {act : Act} (h : act.frees.length = act.axes.length) {m idx : ℕ} (hm : act.axes[m]? = some idx) : act.frees[m]? = some (act.frees.getD m 0) := by
  have : m < act.frees.length := by
    rw [h]; exact (List.getElem?_eq_some_iff.1 hm).1
  rw [List.getD_eq_getElem?_getD, List.getElem?_eq_getElem this]
  rfl

theorem fillFrees_ok : ∀ (acts : List Act) (_ : SizesOK acts) (res res' : ℕ → Option ℕ), fillFrees acts res = .ok res' →
    (∀ idx f, res idx = some f → res' idx = some f) ∧ (∀ idx f, Leg acts idx f → res' idx = some f) ∧ (∀ idx f, res' idx = some f → res idx = some f ∨ Leg acts idx f) := by
  intro acts
  induction acts with
  | nil =>
    intro _ res res' h
    simp only [fillFrees, Except.ok.injEq] at h
    subst h
    exact ⟨fun _ _ h => h, fun idx f h => (by obtain ⟨_, h, _⟩ := h; cases h), fun idx f h => Or.inl h⟩
  | cons act acts ih =>
    intro hs res res' h
    unfold fillFrees at h
    cases ha : fillAct act.frees act.axes 0 res with
    | error e => rw [ha] at h; cases h
    | ok res1 =>
      rw [ha] at h
      obtain ⟨a1, a2, a3⟩ := fillAct_ok _ _ _ _ _ ha
      obtain ⟨b1, b2, b3⟩ := ih (fun a h => hs a (by simp [h])) _ _ h
      have hsz := hs act (by simp)
      refine ⟨fun idx f hf => b1 _ _ (a1 _ _ hf), ?_, ?_⟩
      · rintro idx f ⟨act', hact, m, h1, h2⟩
        rcases List.mem_cons.1 hact with rfl | hact
        · rw [frees_get hsz h1, Option.some.injEq] at h2
          have := a2 m idx h1
          rw [Nat.zero_add, h2] at this
          exact b1 _ _ this
        · exact b2 idx f ⟨act', hact, m, h1, h2⟩
      · intro idx f hf
        rcases b3 idx f hf with h | ⟨act', hact, m, h1, h2⟩
        · rcases a3 idx f h with h | ⟨m, h1, h2⟩
          · exact Or.inl h
          · refine Or.inr ⟨act, by simp, m, h1, ?_⟩
            rw [frees_get hsz h1, h2, Nat.zero_add]
        · exact Or.inr ⟨act', by simp [hact], m, h1, h2⟩

theorem fillFrees_error : ∀ (acts : List Act) (_ : SizesOK acts) (res : ℕ → Option ℕ) (e : ℕ × ℕ), fillFrees acts res = .error e →
    ∃ act ∈ acts, act.axes[e.2]? = some e.1 ∧ ∃ f g, act.frees[e.2]? = some g ∧ f ≠ g ∧ (res e.1 = some f ∨ Leg acts e.1 f) := by
  intro acts
  induction acts with
  | nil => intro _ res e h; simp [fillFrees] at h
  | cons act acts ih =>
    intro hs res e h
    unfold fillFrees at h
    have hsz := hs act (by simp)
    cases ha : fillAct act.frees act.axes 0 res with
    | error e' =>
      rw [ha] at h
      simp only [Except.error.injEq] at h
      subst h
      obtain ⟨m, h1, h2, f, h3, h4⟩ := fillAct_error _ _ _ _ _ ha
      rw [Nat.zero_add] at h1 h3
      rw [h1]
      refine ⟨act, by simp, h2, f, _, frees_get hsz h2, h3, ?_⟩
      rcases h4 with h4 | ⟨m', h4, h5⟩
      · exact Or.inl h4
      · exact Or.inr ⟨act, by simp, m', h4, by rw [frees_get hsz h4, h5, Nat.zero_add]⟩
    | ok res1 =>
      rw [ha] at h
      obtain ⟨act', h1, h2, f, g, h3, h4, h5⟩ := ih (fun a h => hs a (by simp [h])) _ _ h
      refine ⟨act', by simp [h1], h2, f, g, h3, h4, ?_⟩
      rcases h5 with h5 | ⟨act'', h5, h6⟩
      · rcases (fillAct_ok _ _ _ _ _ ha).2.2 _ _ h5 with h | ⟨m, h6, h7⟩
        · exact Or.inl h
        · exact Or.inr ⟨act, by simp, m, h6, by rw [frees_get hsz h6, h7, Nat.zero_add]⟩
      · exact Or.inr ⟨act'', by simp [h5], h6⟩

theorem checkMeta_iff (acts : List Act) (hs : SizesOK acts) : checkMeta acts = true ↔ ∀ idx < rank acts, ∃ f, Leg acts idx f := by
  unfold checkMeta
  simp only [List.all_eq_true, List.mem_range, List.any_eq_true, List.contains_iff_mem]
  refine forall₂_congr fun idx _ => ?_
  constructor
  · rintro ⟨act, h1, h2⟩
    obtain ⟨m, hm⟩ := List.getElem?_of_mem h2
    exact ⟨_, act, h1, m, hm, frees_get (hs act h1) hm⟩
  · rintro ⟨f, act, h1, m, hm, -⟩
    exact ⟨act, h1, List.mem_of_getElem? hm⟩

theorem foldl_max (L : List ℕ) : ∀ b : ℕ, (b ≤ L.foldl max b ∧ ∀ x ∈ L, x ≤ L.foldl max b) ∧ (L.foldl max b = b ∨ L.foldl max b ∈ L) := by
  induction L with
  | nil => intro b; simp
  | cons a L ih =>
    intro b
    obtain ⟨⟨h1, h2⟩, h3⟩ := ih (max b a)
    rw [List.foldl_cons]
    refine ⟨⟨le_trans (le_max_left b a) h1, ?_⟩, ?_⟩
    · intro x hx
      rcases List.mem_cons.1 hx with rfl | hx
      · exact le_trans (le_max_right b x) h1
      · exact h2 x hx
    · rcases h3 with h3 | h3
      · rw [h3]
        rcases max_choice b a with h | h
        · exact Or.inl h
        · exact Or.inr (by simp [h])
      · exact Or.inr (by simp [h3])

/-- The rank of the composite is one more than the largest axis occurring in the interactions. -/
theorem rank_spec (acts : List Act) : (∀ act ∈ acts, ∀ a ∈ act.axes, a < rank acts) ∧ (rank acts = 1 ∨ ∃ act ∈ acts, ∃ a ∈ act.axes, rank acts = a + 1) := by
  unfold rank
  obtain ⟨⟨-, h2⟩, h3⟩ := foldl_max (acts.map fun act => act.axes.foldl max 0) 0
  constructor
  · intro act hact a ha
    have h := h2 _ (List.mem_map.2 ⟨act, hact, rfl⟩)
    have h' := (foldl_max act.axes 0).1.2 a ha
    exact Nat.lt_succ_of_le (le_trans h' h)
  · rcases h3 with h3 | h3
    · left; rw [h3]
    · obtain ⟨act, hact, h⟩ := List.mem_map.1 h3
      rcases (foldl_max act.axes 0).2 with h' | h'
      · left; rw [← h, h']
      · right; exact ⟨act, hact, _, h', by rw [h]⟩

/-- **C32.** The construction of a composite succeeds iff every axis below the rank has a free, and no axis has two different ones. -/
theorem make_ok_iff (dimension : ℕ → ℕ) (acts : List Act) (hs : SizesOK acts) :
    (∃ c, make dimension acts = .ok c) ↔ (∀ idx < rank acts, ∃ f, Leg acts idx f) ∧ ∀ idx f g, Leg acts idx f → Leg acts idx g → f = g := by
  unfold make
  by_cases hm : checkMeta acts = true
  · simp only [hm, if_true]
    rw [checkMeta_iff acts hs] at hm
    cases hf : fillFrees acts (fun _ => none) with
    | error e =>
      simp only [reduceCtorEq, exists_false, false_iff, not_and, not_forall]
      intro _
      obtain ⟨act, h1, h2, f, g, h3, h4, h5⟩ := fillFrees_error acts hs _ _ hf
      rcases h5 with h5 | h5
      · cases h5
      · exact ⟨e.1, f, g, h5, ⟨act, h1, e.2, h2, h3⟩, h4⟩
    | ok res =>
      have h := fillFrees_ok acts hs _ _ hf
      refine ⟨fun _ => ⟨hm, fun idx f g h1 h2 => ?_⟩, fun _ => ⟨_, rfl⟩⟩
      have := h.2.1 idx f h1
      rw [h.2.1 idx g h2] at this
      exact (Option.some.inj this).symm
  · have hm' := hm
    rw [checkMeta_iff acts hs] at hm'
    rw [Bool.not_eq_true] at hm
    simp only [hm, Bool.false_eq_true, if_false]
    simp only [reduceCtorEq, exists_false, false_iff, not_and]
    exact fun h => absurd h hm'

/-- **C32.** When the construction succeeds, there are as many frees as axes, on every axis is the free which the interactions attach to it, and the dimensions are those of these frees. -/
theorem make_ok (dimension : ℕ → ℕ) (acts : List Act) (hs : SizesOK acts) (frees dims : List ℕ) (h : make dimension acts = .ok (frees, dims)) :
    frees.length = rank acts ∧ (∀ idx < rank acts, ∀ f, frees[idx]? = some f ↔ Leg acts idx f) ∧ dims = frees.map dimension := by
  have hc := (make_ok_iff dimension acts hs).1 ⟨_, h⟩
  unfold make at h
  split at h
  · cases hf : fillFrees acts (fun _ => none) with
    | error e => rw [hf] at h; cases h
    | ok res =>
      rw [hf] at h
      simp only [Except.ok.injEq, Prod.mk.injEq] at h
      obtain ⟨rfl, rfl⟩ := h
      have hr := fillFrees_ok acts hs _ _ hf
      refine ⟨by simp, ?_, rfl⟩
      intro idx hidx f
      obtain ⟨g, hg⟩ := hc.1 idx hidx
      have e : ((List.range (rank acts)).map fun idx => (res idx).getD 0)[idx]? = some g := by
        rw [List.getElem?_map, List.getElem?_range hidx]
        simp [hr.2.1 idx g hg]
      rw [e]
      constructor
      · intro h; cases h; exact hg
      · intro h; rw [hc.2 idx f g h hg]
  · cases h

/-- **C32.** The exception names an axis `idx` which is the `i`-th one of an interaction whose `i`-th free differs from the free that another leg attaches to the same axis. -/
theorem make_conflict (dimension : ℕ → ℕ) (acts : List Act) (hs : SizesOK acts) (idx i : ℕ) (h : make dimension acts = .error (.conflict idx i)) :
    ∃ act ∈ acts, act.axes[i]? = some idx ∧ ∃ f g, act.frees[i]? = some g ∧ Leg acts idx f ∧ f ≠ g := by
  unfold make at h
  split at h
  · cases hf : fillFrees acts (fun _ => none) with
    | ok res => rw [hf] at h; cases h
    | error e =>
      rw [hf] at h
      simp only [Except.error.injEq, MakeError.conflict.injEq] at h
      obtain ⟨rfl, rfl⟩ := h
      obtain ⟨act, h1, h2, f, g, h3, h4, h5⟩ := fillFrees_error acts hs _ _ hf
      rcases h5 with h5 | h5
      · cases h5
      · exact ⟨act, h1, h2, f, g, h3, h5, h4⟩
  · cases h

/-- **C32.** The compile-time check fires exactly when some axis below the rank has no free. -/
theorem make_notConsistent (dimension : ℕ → ℕ) (acts : List Act) (hs : SizesOK acts) : make dimension acts = .error .notConsistent ↔ ∃ idx < rank acts, ∀ f, ¬ Leg acts idx f := by
  have hm := checkMeta_iff acts hs
  unfold make
  by_cases h : checkMeta acts = true
  · have h' := hm.1 h
    simp only [h, if_true]
    constructor
    · intro hh
      cases hf : fillFrees acts (fun _ => none) with
      | ok res => rw [hf] at hh; cases hh
      | error e => rw [hf] at hh; cases hh
    · rintro ⟨idx, h1, h2⟩
      obtain ⟨f, hf⟩ := h' idx h1
      exact absurd hf (h2 f)
  · simp only [h, if_false, true_iff, Bool.false_eq_true]
    by_contra hh
    push Not at hh
    exact h (hm.2 hh)

/-- **C32.** The composite is exact (Hamiltonian, Liouvillean) iff one of the components is. -/
theorem characteristics_spec (frees acts : List (Bool × Bool × Bool)) :
    ((characteristics frees acts).1 = true ↔ ∃ c ∈ frees ++ acts, c.1 = true) ∧ ((characteristics frees acts).2.1 = true ↔ ∃ c ∈ frees ++ acts, c.2.1 = true) ∧
      ((characteristics frees acts).2.2 = true ↔ ∃ c ∈ frees ++ acts, c.2.2 = true) := by
  have key : ∀ (L : List (Bool × Bool × Bool)) (b : Bool × Bool × Bool), L.foldl (fun a b => (a.1 || b.1, a.2.1 || b.2.1, a.2.2 || b.2.2)) b =
      (b.1 || L.any (·.1), b.2.1 || L.any (·.2.1), b.2.2 || L.any (·.2.2)) := by
    intro L
    induction L with
    | nil => intro b; simp
    | cons a L ih => intro b; rw [List.foldl_cons, ih]; simp [Bool.or_assoc]
  unfold characteristics
  simp only [key]
  simp only [Bool.false_or, ← List.any_append]
  exact ⟨List.any_eq_true, List.any_eq_true, List.any_eq_true⟩

/-- Three subsystems with two interactions sharing the middle one: constructed. -/
example : make (fun f => f + 2) [⟨[0, 1], [5, 7]⟩, ⟨[2, 1], [4, 7]⟩] = .ok ([5, 7, 4], [7, 9, 6]) := by rfl

/-- The same with different frees on the axis 1: conflict at leg 1. -/
example : make (fun f => f + 2) [⟨[0, 1], [5, 7]⟩, ⟨[2, 1], [4, 8]⟩] = .error (.conflict 1 1) := by rfl

/-- The axis 1 is missing. -/
example : make (fun f => f + 2) [⟨[0, 2], [5, 7]⟩] = .error .notConsistent := by rfl

/-! ## C33 -/

theorem maxElement_spec {α : Type*} (f : α → ℝ) (as : List α) : ∀ a : α, maxElement f a as ∈ a :: as ∧ ∀ x ∈ a :: as, f x ≤ f (maxElement f a as) := by
  induction as with
  | nil => intro a; simp [maxElement]
  | cons b as ih =>
    intro a
    have e : maxElement f a (b :: as) = maxElement f (if f a < f b then b else a) as := rfl
    rw [e]
    obtain ⟨h1, h2⟩ := ih (if f a < f b then b else a)
    have h0 := h2 _ (List.mem_cons_self)
    constructor
    · rcases List.mem_cons.1 h1 with h | h
      · rw [h]; split <;> simp
      · simp [h]
    · intro x hx
      have hab : f a ≤ f (if f a < f b then b else a) ∧ f b ≤ f (if f a < f b then b else a) := by
        split
        · exact ⟨by linarith, le_refl _⟩
        · exact ⟨le_refl _, by linarith⟩
      rcases List.mem_cons.1 hx with rfl | hx
      · linarith [hab.1]
      · rcases List.mem_cons.1 hx with rfl | hx
        · linarith [hab.2]
        · exact h2 x (by simp [hx])

/-- **C33.** The highest frequency of an element bounds all of its declared frequencies (with the multipliers), and is one of them (or zero, when there is none). -/
theorem highestFrequency_spec (realFreqs : List (ℝ × ℝ)) (complexFreqs : List (ℂ × ℝ)) :
    (∀ p ∈ realFreqs, |p.1 * p.2| ≤ highestFrequency realFreqs complexFreqs) ∧ (∀ p ∈ complexFreqs, ‖p.1 * p.2‖ ≤ highestFrequency realFreqs complexFreqs) ∧
      0 ≤ highestFrequency realFreqs complexFreqs ∧
      ((∃ p ∈ realFreqs, highestFrequency realFreqs complexFreqs = |p.1 * p.2|) ∨ (∃ p ∈ complexFreqs, highestFrequency realFreqs complexFreqs = ‖p.1 * p.2‖) ∨
        highestFrequency realFreqs complexFreqs = 0) := by
  have hR : ∃ R, (match realFreqs with | [] => 0 | a :: as => absReal (maxElement absReal a as)) = R ∧ 0 ≤ R ∧ (∀ p ∈ realFreqs, |p.1 * p.2| ≤ R) ∧
      ((∃ p ∈ realFreqs, R = |p.1 * p.2|) ∨ R = 0) := by
    cases realFreqs with
    | nil => exact ⟨0, rfl, le_refl _, by simp, Or.inr rfl⟩
    | cons a as =>
      obtain ⟨h1, h2⟩ := maxElement_spec absReal as a
      exact ⟨_, rfl, abs_nonneg _, h2, Or.inl ⟨_, h1, rfl⟩⟩
  have hC : ∃ C, (match complexFreqs with | [] => 0 | a :: as => absComplex (maxElement absComplex a as)) = C ∧ 0 ≤ C ∧ (∀ p ∈ complexFreqs, ‖p.1 * p.2‖ ≤ C) ∧
      ((∃ p ∈ complexFreqs, C = ‖p.1 * p.2‖) ∨ C = 0) := by
    cases complexFreqs with
    | nil => exact ⟨0, rfl, le_refl _, by simp, Or.inr rfl⟩
    | cons a as =>
      obtain ⟨h1, h2⟩ := maxElement_spec absComplex as a
      exact ⟨_, rfl, norm_nonneg _, h2, Or.inl ⟨_, h1, rfl⟩⟩
  obtain ⟨R, eR, r0, r1, r2⟩ := hR
  obtain ⟨C, eC, c0, c1, c2⟩ := hC
  have e : highestFrequency realFreqs complexFreqs = max R C := by rw [← eR, ← eC]; cases realFreqs <;> cases complexFreqs <;> rfl
  rw [e]
  refine ⟨fun p hp => le_max_of_le_left (r1 p hp), fun p hp => le_max_of_le_right (c1 p hp), le_max_of_le_left r0, ?_⟩
  rcases max_choice R C with h | h
  · rw [h]
    rcases r2 with h' | h'
    · exact Or.inl h'
    · exact Or.inr (Or.inr h')
  · rw [h]
    rcases c2 with h' | h'
    · exact Or.inr (Or.inl h')
    · exact Or.inr (Or.inr h')

/-- **C33.** The highest frequency of a binary system bounds those of its three components and is one of them. -/
theorem binaryHighestFrequency_spec (ia free0 free1 : ℝ) : (ia ≤ binaryHighestFrequency ia free0 free1 ∧ free0 ≤ binaryHighestFrequency ia free0 free1 ∧
    free1 ≤ binaryHighestFrequency ia free0 free1) ∧ binaryHighestFrequency ia free0 free1 ∈ [ia, free0, free1] := by
  unfold binaryHighestFrequency
  refine ⟨⟨le_max_left _ _, le_max_of_le_right (le_max_left _ _), le_max_of_le_right (le_max_right _ _)⟩, ?_⟩
  rcases max_choice free0 free1 with h | h <;> rcases max_choice ia (max free0 free1) with h' | h' <;> rw [h'] <;> simp [h]

/-- **C33.** The highest frequency of a composite bounds those of its frees and is one of them. -/
theorem compositeHighestFrequency_frees (free : ℝ) (frees acts : List ℝ) :
    (∀ f ∈ free :: frees, f ≤ compositeHighestFrequency free frees acts) ∧ compositeHighestFrequency free frees acts ∈ free :: frees := by
  obtain ⟨h1, h2⟩ := maxElement_spec id frees free
  exact ⟨h2, h1⟩

/-- **C33.** With the initial time step calculated from the highest frequency, no oscillation of a frequency bounded by it turns by more than a tenth (radian) in the first step. -/
theorem initialTimeStep_spec (highest freq : ℝ) (h : 0 < highest) (hf : |freq| ≤ highest) : 0 < initialTimeStep highest ∧ |freq * initialTimeStep highest| ≤ 1 / 10 := by
  unfold initialTimeStep
  constructor
  · positivity
  · rw [abs_mul, abs_of_pos (show 0 < 1 / (10 * highest) by positivity), mul_one_div, div_le_div_iff₀ (by positivity) (by norm_num)]
    linarith

/-- **C67** (violated). The frequencies of the interactions do not count in a composite: the highest frequency can be less than that of an interaction. -/
theorem compositeHighestFrequency_ignores_interactions : ∃ (free : ℝ) (frees acts : List ℝ), ∃ f ∈ acts, compositeHighestFrequency free frees acts < f := by
  refine ⟨1, [2], [100], 100, by simp, ?_⟩
  have h := (compositeHighestFrequency_frees 1 [2] [100]).2
  simp only [List.mem_cons, List.not_mem_nil, or_false] at h
  rcases h with h | h <;> rw [h] <;> norm_num

/-- **C67**, partial: the bound holds for the interactions exactly when none of them has a frequency higher than all of the frees. Missing: the bound when an interaction is the fastest, where
`compositeHighestFrequency_ignores_interactions` refutes it. -/
theorem compositeHighestFrequency_partial (free : ℝ) (frees acts : List ℝ) :
    (∀ f ∈ acts, f ≤ compositeHighestFrequency free frees acts) ↔ ∀ f ∈ acts, ∃ g ∈ free :: frees, f ≤ g := by
  obtain ⟨h1, h2⟩ := compositeHighestFrequency_frees free frees acts
  constructor
  · intro h f hf; exact ⟨_, h2, h f hf⟩
  · intro h f hf
    obtain ⟨g, hg, hfg⟩ := h f hf
    exact le_trans hfg (h1 g hg)

/-- A mode with a detuning of -10 and cutoff 20 and a pump: the highest frequency is 200. -/
example : highestFrequency [(-10, 20)] [(3, 5)] = 200 := by
  simp only [highestFrequency, maxElement, List.foldl_nil, absReal, absComplex, norm_mul]
  norm_num

end CppQED.Composite
