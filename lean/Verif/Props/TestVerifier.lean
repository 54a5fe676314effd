import Verif.Props.TestDriver
import Mathlib.Algebra.Order.BigOperators.Ring.Finset
import Mathlib.Data.List.GetD

/-!
# C159, C160: the verification of output files
-/

namespace CppQED.TestDriver
open CppQED.Tridiag CppQED.PyText

/-! ## Arrays -/

theorem bshape_self (s : List ℕ) : bshape s s = some s := by
  induction s with
  | nil => rfl
  | cons m s ih => simp [bshape, ih]

theorem bshape_same_rank : ∀ (s t : List ℕ), s.length = t.length → (∀ m ∈ s, m ≠ 1) → (∀ m ∈ t, m ≠ 1) → s ≠ t → bshape s t = none := by
  intro s
  induction s with
  | nil => intro t ht _ _ hne; exact absurd (List.length_eq_zero_iff.1 ht.symm).symm hne
  | cons m s ih =>
    intro t ht hs ht1 hne
    cases t with
    | nil => simp at ht
    | cons n t =>
      by_cases hst : s = t
      · subst hst
        have hmn : m ≠ n := fun h => hne (by rw [h])
        simp [bshape, bshape_self, hmn, hs m (List.mem_cons_self ..), ht1 n (List.mem_cons_self ..)]
      · simp [bshape, ih t (by simpa using ht) (fun x hx => hs x (List.mem_cons_of_mem _ hx)) (fun x hx => ht1 x (List.mem_cons_of_mem _ hx)) hst]

theorem pick_self {i shape : List ℕ} (h : List.Forall₂ (· < ·) i shape) : pick shape i = i := by
  induction h with
  | nil => rfl
  | @cons j m i shape h _ ih =>
    unfold pick at ih ⊢
    rw [List.zipWith_cons_cons, ih]
    split
    · next h1 => subst h1; rw [show j = 0 by omega]
    · rfl

theorem at_self {E : Type} (a : Arr E) {i : List ℕ} (h : List.Forall₂ (· < ·) i a.shape) : a.at i = a.val i := by
  unfold Arr.at
  rw [pick_self (List.rel_reverse h), List.reverse_reverse]

/-- Arrays of the same shape are compared element by element. -/
theorem allclose_same {E : Type} [NormedAddCommGroup E] (a b : Arr E) (h : a.shape = b.shape) : allclose a b = .ok true ↔ ∀ i, List.Forall₂ (· < ·) i a.shape → isClose (a.val i) (b.val i) := by
  unfold allclose
  rw [← h, bshape_self]
  simp only [List.reverse_reverse, Outcome.ok.injEq, decide_eq_true_iff]
  refine forall₂_congr fun i hi => ?_
  rw [at_self a hi, at_self b (h ▸ hi)]

/-- Arrays of the same rank without axes of extent one agree exactly if they have the same shape and their elements agree. -/
theorem allclose_iff {E : Type} [NormedAddCommGroup E] (a b : Arr E) (h : a.shape.length = b.shape.length) (ha : ∀ m ∈ a.shape, m ≠ 1) (hb : ∀ m ∈ b.shape, m ≠ 1) :
    allclose a b = .ok true ↔ a.shape = b.shape ∧ ∀ i, List.Forall₂ (· < ·) i a.shape → isClose (a.val i) (b.val i) := by
  by_cases hs : a.shape = b.shape
  · rw [allclose_same a b hs]; simp [hs]
  · have : bshape a.shape.reverse b.shape.reverse = none := by
      refine bshape_same_rank _ _ (by simpa using h) (by simpa using ha) (by simpa using hb) fun hr => hs ?_
      simpa using hr
    unfold allclose
    rw [this]
    simp [hs]

/-! ## Texts -/

theorem genfromtxt_table {E : Type} (float : Str → Option E) (s : Str) (n m : ℕ) (h : IsTable (dataWords s) n m) (hn : 2 ≤ n) (hm : 2 ≤ m) :
    genfromtxt float s = .ok ⟨[n, m], fun i => (((dataWords s).map fun r => r.map float).getD (i.getD 0 0) []).getD (i.getD 1 0) none⟩ := by
  unfold genfromtxt
  have hd : (((fileLines s).map fun l => split (cut (some '#') l)).filter (· ≠ [])) = dataWords s := rfl
  rw [hd]
  obtain ⟨h1, h2⟩ := h
  match hw : dataWords s, h1, h2 with
  | [], h1, _ => simp at h1; omega
  | [r], h1, _ => simp at h1; omega
  | r0 :: r1 :: rs, h1, h2 =>
    have hr0 : r0.length = m := h2 r0 (by simp)
    have hhead : (((r0 :: r1 :: rs).map fun r => r.map float).headD []).length = m := by simp [hr0]
    have hall : (((r0 :: r1 :: rs).map fun r => r.map float).all fun r => r.length == (((r0 :: r1 :: rs).map fun r => r.map float).headD []).length) = true := by
      rw [hhead, List.all_eq_true]
      intro x hx
      obtain ⟨r, hr, rfl⟩ := List.mem_map.1 hx
      simp [h2 r hr]
    rw [if_pos hall]
    have hsq : squeeze ((r0 :: r1 :: rs).map fun r => r.map float) = .table ((r0 :: r1 :: rs).map fun r => r.map float) := by
      rw [squeeze.eq_4 _ (by simp) (by simp) (by simp), if_neg]
      rw [List.map_cons]
      simp only [List.all_cons, Bool.and_eq_true, beq_iff_eq, List.length_map, hr0]
      omega
    rw [hsq]
    unfold ofLoaded
    simp only [hhead]
    rw [show ((r0 :: r1 :: rs).map fun r => r.map float).length = n by simpa using h1]

theorem genfromtxt_line {E : Type} (float : Str → Option E) (s : Str) (r : List Str) (h : dataWords s = [r]) (hm : 2 ≤ r.length) :
    genfromtxt float s = .ok ⟨[r.length], fun i => (r.map float).getD (i.getD 0 0) none⟩ := by
  unfold genfromtxt
  have hd : (((fileLines s).map fun l => split (cut (some '#') l)).filter (· ≠ [])) = dataWords s := rfl
  rw [hd, h]
  match r, hm with
  | a :: b :: r, _ => simp [squeeze, ofLoaded]

theorem isClose_agree (float : Str → Option ℝ) (a b : Str) : isClose (float a) (float b) ↔ Agree float a b := by
  unfold isClose Agree
  cases float a with
  | none => simp
  | some x =>
    cases float b with
    | none => simp
    | some y => simp [Real.norm_eq_abs]

theorem forall₂_iff_getD {α : Type} (R : α → α → Prop) (d : α) : ∀ (l l' : List α), List.Forall₂ R l l' ↔ l.length = l'.length ∧ ∀ i < l.length, R (l.getD i d) (l'.getD i d) := by
  intro l
  induction l with
  | nil => intro l'; cases l' <;> simp
  | cons a l ih =>
    intro l'
    cases l' with
    | nil => simp
    | cons b l' =>
      rw [List.forall₂_cons, ih]
      simp only [List.length_cons, Nat.add_right_cancel_iff]
      constructor
      · rintro ⟨h, h1, h2⟩
        refine ⟨h1, fun i hi => ?_⟩
        cases i with
        | zero => simpa using h
        | succ i => simpa using h2 i (by omega)
      · rintro ⟨h1, h2⟩
        exact ⟨by simpa using h2 0 (by omega), h1, fun i hi => by simpa using h2 (i + 1) (by omega)⟩

theorem map_getD {α β : Type} (f : α → β) (l : List α) (i : ℕ) (d : α) (e : β) (h : i < l.length) : (l.map f).getD i e = f (l.getD i d) := by
  rw [List.getD_eq_getElem _ _ (by simpa using h), List.getD_eq_getElem _ _ h, List.getElem_map]

theorem getD_mem {α : Type} (l : List α) (i : ℕ) (d : α) (h : i < l.length) : l.getD i d ∈ l := by
  rw [List.getD_eq_getElem _ _ h]; exact List.getElem_mem h

theorem index_pair (i : List ℕ) (n m : ℕ) : List.Forall₂ (· < ·) i [n, m] ↔ ∃ a b, i = [a, b] ∧ a < n ∧ b < m := by
  constructor
  · intro h
    cases h with
    | cons h1 h => cases h with
      | cons h2 h => cases h; exact ⟨_, _, rfl, h1, h2⟩
  · rintro ⟨a, b, rfl, h1, h2⟩
    exact .cons h1 (.cons h2 .nil)

theorem decide_ok {c : Outcome Bool} : (c.bind fun c => if c then Outcome.ok () else .throw) = .ok () ↔ c = .ok true := by
  cases c with
  | ok b => cases b <;> simp [Outcome.bind]
  | throw => simp [Outcome.bind]
  | undef => simp [Outcome.bind]

/-- **C159.** Two trajectories of at least two lines and two columns pass exactly if they have the same numbers of lines and columns, and all their numbers agree to the tolerance. -/
theorem verifyEv_iff (f : Files) (this other : Str) (s t : Str) (hs : f.text this = some s) (ht : f.text other = some t) (n m n' m' : ℕ) (h : IsTable (dataWords s) n m) (h' : IsTable (dataWords t) n' m') (hn : 2 ≤ n) (hm : 2 ≤ m)
    (hn' : 2 ≤ n') (hm' : 2 ≤ m') : verifyEv f this other = .ok () ↔ List.Forall₂ (List.Forall₂ (Agree f.float)) (dataWords s) (dataWords t) := by
  unfold verifyEv loadSv
  rw [hs, ht]
  simp only [genfromtxt_table f.float s n m h hn hm, genfromtxt_table f.float t n' m' h' hn' hm', ok_bind]
  rw [decide_ok, allclose_iff _ _ (by simp) (by simp; omega) (by simp; omega)]
  simp only [List.cons.injEq, and_true]
  rw [forall₂_iff_getD _ [], h.1, h'.1]
  constructor
  · rintro ⟨⟨rfl, rfl⟩, hc⟩
    refine ⟨rfl, fun i hi => ?_⟩
    have l1 := h.2 _ (getD_mem (dataWords s) i [] (by rw [h.1]; exact hi))
    have l2 := h'.2 _ (getD_mem (dataWords t) i [] (by rw [h'.1]; exact hi))
    rw [forall₂_iff_getD _ []]
    refine ⟨by rw [l1, l2], fun j hj => ?_⟩
    rw [l1] at hj
    have := hc [i, j] ((index_pair _ _ _).2 ⟨i, j, rfl, hi, hj⟩)
    simp only [List.getD_cons_zero, List.getD_cons_succ] at this
    rw [map_getD _ _ i [] _ (by rw [h.1]; exact hi), map_getD _ _ i [] _ (by rw [h'.1]; exact hi), map_getD _ _ j [] _ (by rw [l1]; exact hj), map_getD _ _ j [] _ (by rw [l2]; exact hj), isClose_agree] at this
    exact this
  · rintro ⟨rfl, hc⟩
    have hmm : m = m' := by
      have l1 := h.2 _ (getD_mem (dataWords s) 0 [] (by rw [h.1]; omega))
      have l2 := h'.2 _ (getD_mem (dataWords t) 0 [] (by rw [h'.1]; omega))
      have := (hc 0 (by omega)).length_eq
      omega
    subst hmm
    refine ⟨⟨rfl, rfl⟩, fun i hi => ?_⟩
    obtain ⟨a, b, rfl, ha, hb⟩ := (index_pair _ _ _).1 hi
    have l1 := h.2 _ (getD_mem (dataWords s) a [] (by rw [h.1]; exact ha))
    have l2 := h'.2 _ (getD_mem (dataWords t) a [] (by rw [h'.1]; exact ha))
    simp only [List.getD_cons_zero, List.getD_cons_succ]
    rw [map_getD _ _ a [] _ (by rw [h.1]; exact ha), map_getD _ _ a [] _ (by rw [h'.1]; exact ha), map_getD _ _ b [] _ (by rw [l1]; exact hb), map_getD _ _ b [] _ (by rw [l2]; exact hb), isClose_agree]
    exact ((forall₂_iff_getD _ [] _ _).1 (hc a ha)).2 b (by rw [l1]; exact hb)

/-- **C159.** State files with arrays of the same shape pass exactly if all the states and times agree to the tolerance. -/
theorem verifyState_iff (f : Files) (this other : Str) (a b : Arr ℂ × Arr ℝ) (hs : f.state this = .ok a) (ht : f.state other = .ok b) (h1 : a.1.shape = b.1.shape) (h2 : a.2.shape = b.2.shape) :
    verifyState f this other = .ok () ↔ (∀ i, List.Forall₂ (· < ·) i a.1.shape → isClose (a.1.val i) (b.1.val i)) ∧ ∀ i, List.Forall₂ (· < ·) i a.2.shape → isClose (a.2.val i) (b.2.val i) := by
  unfold verifyState
  rw [hs, ht]
  simp only [ok_bind]
  rw [← allclose_same a.1 b.1 h1, ← allclose_same a.2 b.2 h2]
  cases h : allclose a.1 b.1 with
  | ok c =>
    cases c with
    | false => simp [Outcome.bind]
    | true => simp only [ok_bind, if_true, true_and]; exact decide_ok
  | throw => simp [Outcome.bind]
  | undef => simp [Outcome.bind]

/-- State files with numbers of axes equal and no axis of extent one do not pass if their shapes differ. -/
theorem verifyState_shape (f : Files) (this other : Str) (a b : Arr ℂ × Arr ℝ) (hs : f.state this = .ok a) (ht : f.state other = .ok b) (hl : a.1.shape.length = b.1.shape.length) (ha : ∀ m ∈ a.1.shape, m ≠ 1)
    (hb : ∀ m ∈ b.1.shape, m ≠ 1) (hne : a.1.shape ≠ b.1.shape) : verifyState f this other ≠ .ok () := by
  unfold verifyState
  rw [hs, ht]
  simp only [ok_bind]
  intro h
  obtain ⟨c, h1, h2⟩ := bind_ok h
  cases c with
  | false => simp at h2
  | true => exact hne ((allclose_iff _ _ hl ha hb).1 h1).1

/-! ## Verifier -/

/-- The file of a section and run mode. -/
theorem output_eq (o : Setup) (mode s : Str) (state : Bool) : output o mode s state = o.outputdir ++ '/' :: ((if mode = "generic".toList then s else s ++ '_' :: mode) ++ if state then ".state".toList else []) := rfl

theorem bind_unit {x : Outcome Unit} {y : Outcome Unit} : (x.bind fun _ => y) = .ok () ↔ x = .ok () ∧ y = .ok () := by
  cases x with
  | ok a => simp [Outcome.bind]
  | throw => simp [Outcome.bind]
  | undef => simp [Outcome.bind]

theorem verifyLoop_iff (f : Files) (o : Setup) (this : Str) (other : Option Str) (modes : List Str) : verifyLoop f o this other modes = .ok () ↔
    ∀ m ∈ modes, verifyEv f (output o m this false) (otherOutput o this other m false) = .ok () ∧ verifyState f (output o m this true) (otherOutput o this other m true) = .ok () := by
  induction modes with
  | nil => simp [verifyLoop]
  | cons m ms ih =>
    rw [verifyLoop, bind_unit, bind_unit, ih]
    simp [and_assoc]

/-- The test of the configuration: the section verified, and the one with which it is compared. -/
theorem verify_eq (f : Files) (o : Setup) {cfg cp : Config} (hw : WellFormed cfg) (h : Reachable o.limit cfg cp) (he : ∀ s, Ends cfg o.limit s) :
    ∃ cp', verify f o cp =
      if val cfg o.test "verify".toList = none ∨ val cfg o.test "verify".toList = some "full".toList then
        (verifyLoop f o ((val cfg o.test "this".toList).getD o.test) (val cfg o.test "other".toList) (modesOf cfg ((val cfg o.test "this".toList).getD o.test))).bind fun _ => .ok cp'
      else if val cfg o.test "verify".toList = some "outcome".toList then .throw else .ok cp' := by
  obtain ⟨c1, a1, a2, -⟩ := getOption_default hw h o.test "this".toList (he _) (by decide) (some o.test)
  obtain ⟨c2, b1, b2, -⟩ := getOption_default hw a2 o.test "other".toList (he _) (by decide) none
  obtain ⟨c3, d1, d2, -⟩ := getOption_default hw b2 o.test "verify".toList (he _) (by decide) none
  have l1 : lower "this".toList = "this".toList := by decide
  have l2 : lower "other".toList = "other".toList := by decide
  have l3 : lower "verify".toList = "verify".toList := by decide
  have hnone : ∀ x : Option Str, (x.orElse fun _ => none) = x := by intro x; cases x <;> rfl
  have hget : ∀ x : Option Str, (x.orElse fun _ => some o.test).getD [] = x.getD o.test := by intro x; cases x <;> rfl
  unfold verify
  rw [a1, ok_bind]
  simp only [b1, ok_bind, d1, l1, l2, l3, hnone, hget]
  split
  · obtain ⟨c4, e1, e2, -⟩ := runmodes_eq hw d2 ((val cfg o.test "this".toList).getD o.test) (he _)
    exact ⟨c4, by rw [e1]; rfl⟩
  · exact ⟨c3, rfl⟩

/-- The name of the output file of a section in a run mode: the run mode is appended to the name of the section, unless it is `generic`. -/
def fileName (mode s : Str) : Str := if mode = "generic".toList then s else s ++ '_' :: mode

theorem output_name (o : Setup) (m s : Str) :
    output o m s false = o.outputdir ++ '/' :: fileName m s ∧ output o m s true = o.outputdir ++ '/' :: fileName m s ++ ".state".toList := by
  rw [output_eq, output_eq]
  refine ⟨?_, ?_⟩
  · rw [if_neg Bool.false_ne_true, List.append_nil, fileName]
  · rw [if_pos rfl, fileName, List.append_assoc, List.cons_append]

theorem otherOutput_eq (o : Setup) (this : Str) (other : Option Str) (m : Str) :
    otherOutput o this other m false = (match other with
      | none => o.expecteddir ++ '/' :: fileName m this
      | some other => o.outputdir ++ '/' :: fileName m other) ∧
    otherOutput o this other m true = (match other with
      | none => o.expecteddir ++ '/' :: fileName m this ++ ".state".toList
      | some other => o.outputdir ++ '/' :: fileName m other ++ ".state".toList) := by
  cases other with
  | none => exact output_name { o with outputdir := o.expecteddir } m this
  | some other => exact output_name o m other

/-- **C159.** The verification in full (`verify=full`, or the key missing) passes exactly if in all run modes of the section to verify the trajectories and
the states pass against those of the other section, or, if none is given, against the expected ones of the same section. -/
theorem verify_full (f : Files) (o : Setup) {cfg cp : Config} (hw : WellFormed cfg) (h : Reachable o.limit cfg cp) (he : ∀ s, Ends cfg o.limit s)
    (hv : ∀ v, Value cfg o.test "verify".toList v → v = "full".toList) (this : Str) (hthis : this = (val cfg o.test "this".toList).getD o.test) :
    (∃ cp', verify f o cp = .ok cp') ↔ ∀ m ∈ modesOf cfg this,
      verifyEv f (o.outputdir ++ '/' :: fileName m this) (match val cfg o.test "other".toList with
        | none => o.expecteddir ++ '/' :: fileName m this
        | some other => o.outputdir ++ '/' :: fileName m other) = .ok () ∧
      verifyState f (o.outputdir ++ '/' :: fileName m this ++ ".state".toList) (match val cfg o.test "other".toList with
        | none => o.expecteddir ++ '/' :: fileName m this ++ ".state".toList
        | some other => o.outputdir ++ '/' :: fileName m other ++ ".state".toList) = .ok () := by
  subst hthis
  obtain ⟨cp', hc⟩ := verify_eq f o hw h he
  have hfull : val cfg o.test "verify".toList = none ∨ val cfg o.test "verify".toList = some "full".toList := by
    cases hx : val cfg o.test "verify".toList with
    | none => exact Or.inl rfl
    | some v => rw [hv v ((val_some hw _ _ _).1 hx)]; exact Or.inr rfl
  have hl := verifyLoop_iff f o ((val cfg o.test "this".toList).getD o.test) (val cfg o.test "other".toList) (modesOf cfg ((val cfg o.test "this".toList).getD o.test))
  simp only [(otherOutput_eq o _ _ _).1, (otherOutput_eq o _ _ _).2, (output_name o _ _).1, (output_name o _ _).2] at hl
  rw [hc, if_pos hfull, ← hl]
  constructor
  · rintro ⟨c, hb⟩
    obtain ⟨a, ha, -⟩ := bind_ok hb
    exact ha
  · intro hb
    exact ⟨cp', by rw [hb]; rfl⟩

/-- **C159.** A verification that passes has found all the files, and texts that are tables of the same length in each row. -/
theorem verifyEv_files (f : Files) (this other : Str) (h : verifyEv f this other = .ok ()) : (∃ s, f.text this = some s) ∧ ∃ t, f.text other = some t := by
  unfold verifyEv at h
  obtain ⟨a, h1, h2⟩ := bind_ok h
  obtain ⟨b, h3, -⟩ := bind_ok h2
  unfold loadSv at h1 h3
  constructor
  · cases hx : f.text this with
    | none => rw [hx] at h1; simp at h1
    | some s => exact ⟨s, rfl⟩
  · cases hx : f.text other with
    | none => rw [hx] at h3; simp at h3
    | some s => exact ⟨s, rfl⟩

/-! ## What the verification does not do (C160) -/

/-- **C160.** Full statement: the trajectories are exactly equal. Missing: (1) A trajectory of a single line passes against a trajectory of any number of lines, all of which agree with it: the array of one line is broadcast. -/
theorem verifyEv_line_partial (f : Files) (this other : Str) (s t : Str) (hs : f.text this = some s) (ht : f.text other = some t) (r : List Str) (hr : dataWords s = [r]) (hm : 2 ≤ r.length) (n : ℕ) (hn : 2 ≤ n)
    (h : IsTable (dataWords t) n r.length) : verifyEv f this other = .ok () ↔ ∀ r' ∈ dataWords t, List.Forall₂ (Agree f.float) r r' := by
  unfold verifyEv loadSv
  rw [hs, ht]
  simp only [genfromtxt_line f.float s r hr hm, genfromtxt_table f.float t n r.length h hn hm, ok_bind]
  rw [decide_ok]
  unfold allclose
  have hb : bshape [r.length].reverse [n, r.length].reverse = some [r.length, n] := by simp [bshape]
  simp only [hb, Outcome.ok.injEq, decide_eq_true_iff]
  have hat : ∀ a b, a < n → b < r.length → (isClose ((⟨[r.length], fun i => (r.map f.float).getD (i.getD 0 0) none⟩ : Arr ℝ).at [a, b])
      ((⟨[n, r.length], fun i => (((dataWords t).map fun r => r.map f.float).getD (i.getD 0 0) []).getD (i.getD 1 0) none⟩ : Arr ℝ).at [a, b]) ↔ Agree f.float (r.getD b []) (((dataWords t).getD a []).getD b [])) := by
    intro a b ha hb
    have l2 := h.2 _ (getD_mem (dataWords t) a [] (by rw [h.1]; exact ha))
    rw [at_self (⟨[n, r.length], fun i => (((dataWords t).map fun r => r.map f.float).getD (i.getD 0 0) []).getD (i.getD 1 0) none⟩ : Arr ℝ) ((index_pair _ _ _).2 ⟨a, b, rfl, ha, hb⟩)]
    have hne : r.length ≠ 1 := by omega
    have hp : (⟨[r.length], fun i => (r.map f.float).getD (i.getD 0 0) none⟩ : Arr ℝ).at [a, b] = (r.map f.float).getD b none := by
      simp [Arr.at, pick, hne]
    rw [hp, ← isClose_agree]
    simp only [List.getD_cons_zero, List.getD_cons_succ]
    rw [map_getD _ _ a [] _ (by rw [h.1]; exact ha), map_getD _ _ b [] _ hb, map_getD _ _ b [] _ (by rw [l2]; exact hb)]
  constructor
  · intro hc r' hr'
    obtain ⟨a, ha, rfl⟩ := List.getElem_of_mem hr'
    rw [forall₂_iff_getD _ []]
    refine ⟨(h.2 _ hr').symm, fun b hb => ?_⟩
    have := (hat a b (by rw [← h.1]; exact ha) hb).1 (hc [a, b] ((index_pair _ _ _).2 ⟨a, b, rfl, by rw [← h.1]; exact ha, hb⟩))
    rwa [List.getD_eq_getElem _ _ ha] at this
  · intro hc i hi
    obtain ⟨a, b, rfl, ha, hb⟩ := (index_pair _ _ _).1 hi
    rw [hat a b ha hb]
    have := hc _ (getD_mem (dataWords t) a [] (by rw [h.1]; exact ha))
    exact ((forall₂_iff_getD _ [] _ _).1 this).2 b hb

/-- **C160.** (2) The comparison of the last outcome (`verify=outcome`) always fails, whatever the files: the method is called without its arguments. -/
theorem verify_outcome_partial (f : Files) (o : Setup) {cfg cp : Config} (hw : WellFormed cfg) (h : Reachable o.limit cfg cp) (he : ∀ s, Ends cfg o.limit s) (hv : Value cfg o.test "verify".toList "outcome".toList) :
    verify f o cp = .throw := by
  obtain ⟨cp', hc⟩ := verify_eq f o hw h he
  have := (val_some hw _ _ _).2 hv
  rw [hc, this, if_neg (by decide), if_pos rfl]

/-- **C160.** (3) With any other value of `verify` the test passes, whatever the files, and even if there are none. -/
theorem verify_unknown_partial (f : Files) (o : Setup) {cfg cp : Config} (hw : WellFormed cfg) (h : Reachable o.limit cfg cp) (he : ∀ s, Ends cfg o.limit s) (v : Str) (hv : Value cfg o.test "verify".toList v) (h1 : v ≠ "full".toList)
    (h2 : v ≠ "outcome".toList) : ∃ cp', verify f o cp = .ok cp' := by
  obtain ⟨cp', hc⟩ := verify_eq f o hw h he
  have := (val_some hw _ _ _).2 hv
  rw [hc, this, if_neg (by simpa using h1), if_neg (by simpa using h2)]
  exact ⟨cp', rfl⟩

/-- **C160.** (4) Numbers that differ pass, and whether they do may depend on which of the two files is the expected one. -/
theorem agree_not_symmetric_partial : ∃ (float : Str → Option ℝ) (a b : Str), float a ≠ float b ∧ Agree float a b ∧ ¬ Agree float b a := by
  refine ⟨fun s => if s = ['1'] then some 1 else some (1 + 1.001e-5 + 1e-10), ['1'], ['2'], ?_, ⟨1, 1 + 1.001e-5 + 1e-10, by simp, by simp, ?_⟩, ?_⟩
  · simp; norm_num
  · norm_num [abs_of_neg, abs_of_pos]
  · rintro ⟨x, y, hx, hy, hxy⟩
    simp at hx hy
    rw [← hx, ← hy] at hxy
    norm_num [abs_of_neg, abs_of_pos] at hxy

theorem bshape_append (s : List ℕ) (m n k : ℕ) (h : bshape [m] [n] = some [k]) : bshape (s ++ [m]) (s ++ [n]) = some (s ++ [k]) := by
  induction s with
  | nil => exact h
  | cons x s ih => simp [bshape, ih]

/-- An array with one entry along its first axis is repeated along this axis. -/
theorem at_lead {E : Type} (a : Arr E) (sh : List ℕ) (h : a.shape = 1 :: sh) (k : ℕ) (i : List ℕ) (hi : List.Forall₂ (· < ·) i sh) : a.at (k :: i) = a.val (0 :: i) := by
  have hp := pick_self (List.rel_reverse hi)
  unfold pick at hp
  unfold Arr.at pick
  have hl : sh.reverse.length = i.reverse.length := by simpa using hi.length_eq.symm
  rw [h, List.reverse_cons, List.reverse_cons, List.zipWith_append hl, hp]
  simp

theorem allclose_lead {E : Type} [NormedAddCommGroup E] (a b : Arr E) (sh : List ℕ) (n : ℕ) (ha : a.shape = 1 :: sh) (hb : b.shape = n :: sh) :
    allclose a b = .ok true ↔ ∀ k < n, ∀ i, List.Forall₂ (· < ·) i sh → isClose (a.val (0 :: i)) (b.val (k :: i)) := by
  have hs : bshape a.shape.reverse b.shape.reverse = some (n :: sh).reverse := by
    rw [ha, hb, List.reverse_cons, List.reverse_cons]
    exact bshape_append _ _ _ _ (by by_cases h : 1 = n <;> simp [bshape, h])
  unfold allclose
  simp only [hs, List.reverse_reverse, Outcome.ok.injEq, decide_eq_true_iff]
  constructor
  · intro h k hk i hi
    have := h (k :: i) (.cons hk hi)
    rwa [at_lead a sh ha k i hi, at_self b (hb ▸ .cons hk hi)] at this
  · rintro h _ (_ | ⟨hk, hi⟩)
    rename_i k i
    rw [at_lead a sh ha k i hi, at_self b (hb ▸ .cons hk hi)]
    exact h k hk i hi

theorem allclose_lead' {E : Type} [NormedAddCommGroup E] (a b : Arr E) (sh : List ℕ) (n : ℕ) (ha : a.shape = n :: sh) (hb : b.shape = 1 :: sh) :
    allclose a b = .ok true ↔ ∀ k < n, ∀ i, List.Forall₂ (· < ·) i sh → isClose (a.val (k :: i)) (b.val (0 :: i)) := by
  have hs : bshape a.shape.reverse b.shape.reverse = some (n :: sh).reverse := by
    rw [ha, hb, List.reverse_cons, List.reverse_cons]
    exact bshape_append _ _ _ _ (by by_cases h : n = 1 <;> simp [bshape, h])
  unfold allclose
  simp only [hs, List.reverse_reverse, Outcome.ok.injEq, decide_eq_true_iff]
  constructor
  · intro h k hk i hi
    have := h (k :: i) (.cons hk hi)
    rwa [at_self a (ha ▸ .cons hk hi), at_lead b sh hb k i hi] at this
  · rintro h _ (_ | ⟨hk, hi⟩)
    rename_i k i
    rw [at_self a (ha ▸ .cons hk hi), at_lead b sh hb k i hi]
    exact h k hk i hi

theorem verifyState_eq (f : Files) (this other : Str) (a b : Arr ℂ × Arr ℝ) (hs : f.state this = .ok a) (ht : f.state other = .ok b) :
    verifyState f this other = .ok () ↔ allclose a.1 b.1 = .ok true ∧ allclose a.2 b.2 = .ok true := by
  unfold verifyState
  rw [hs, ht]
  simp only [ok_bind]
  cases h : allclose a.1 b.1 with
  | ok c =>
    cases c with
    | false => simp [Outcome.bind]
    | true => simp only [ok_bind, if_true, true_and]; exact decide_ok
  | throw => simp [Outcome.bind]
  | undef => simp [Outcome.bind]

/-- **C160.** (5) State files with different numbers of states: a file with a single state passes against any number of states, all of which agree with it
(amplitudes and times), whichever of the two files is the expected one. -/
theorem verifyState_single_partial (f : Files) (this other : Str) (a b : Arr ℂ × Arr ℝ) (hs : f.state this = .ok a) (ht : f.state other = .ok b) (sh : List ℕ) (n : ℕ)
    (ha : a.1.shape = 1 :: sh) (ha' : a.2.shape = [1]) (hb : b.1.shape = n :: sh) (hb' : b.2.shape = [n]) :
    (verifyState f this other = .ok () ↔ ∀ k < n, (∀ i, List.Forall₂ (· < ·) i sh → isClose (a.1.val (0 :: i)) (b.1.val (k :: i))) ∧ isClose (a.2.val [0]) (b.2.val [k])) ∧
    (verifyState f other this = .ok () ↔ ∀ k < n, (∀ i, List.Forall₂ (· < ·) i sh → isClose (b.1.val (k :: i)) (a.1.val (0 :: i))) ∧ isClose (b.2.val [k]) (a.2.val [0])) := by
  rw [verifyState_eq f this other a b hs ht, verifyState_eq f other this b a ht hs, allclose_lead a.1 b.1 sh n ha hb, allclose_lead a.2 b.2 [] n ha' hb',
    allclose_lead' b.1 a.1 sh n hb ha, allclose_lead' b.2 a.2 [] n hb' ha']
  constructor
  · exact ⟨fun h k hk => ⟨h.1 k hk, h.2 k hk [] .nil⟩, fun h => ⟨fun k hk => (h k hk).1, fun k hk i hi => by cases hi; exact (h k hk).2⟩⟩
  · exact ⟨fun h k hk => ⟨h.1 k hk, h.2 k hk [] .nil⟩, fun h => ⟨fun k hk => (h k hk).1, fun k hk i hi => by cases hi; exact (h k hk).2⟩⟩

/-! ## The hypotheses are met -/

/-- Two lines of three columns, with a header and an empty line. -/
example : IsTable (dataWords "# t dt n\n0 0.1 1\n\n1 0.1 3\n".toList) 2 3 := by constructor <;> decide

/-- The two files of which one has only one line, read with the numbers 0 to 9. -/
def sampleFiles : Files where
  text := fun s => if s = "long".toList then some "# t n\n1 2\n1 2\n1 2\n".toList else some "# t n\n1 2\n".toList
  float := fun s => match s with
    | [c] => some (c.toNat : ℝ)
    | _ => none
  state := fun _ => .throw

/-- A line that is written three times passes against the line written once. -/
example : verifyEv sampleFiles "short".toList "long".toList = .ok () := by
  refine (verifyEv_line_partial sampleFiles _ _ "# t n\n1 2\n".toList "# t n\n1 2\n1 2\n1 2\n".toList (by rfl) (by rfl) ["1".toList, "2".toList] (by decide) (by decide) 3 (by decide) ⟨by decide, by decide⟩).2 ?_
  intro r hr
  have : r = ["1".toList, "2".toList] := by
    have hd : dataWords "# t n\n1 2\n1 2\n1 2\n".toList = [["1".toList, "2".toList], ["1".toList, "2".toList], ["1".toList, "2".toList]] := by decide
    rw [hd] at hr
    simpa using hr
  subst this
  have h0 : ∀ c : Char, Agree sampleFiles.float [c] [c] := fun c => ⟨c.toNat, c.toNat, rfl, rfl, by simp; positivity⟩
  exact .cons (h0 '1') (.cons (h0 '2') .nil)

/-- A configuration with a value of `verify` that does not exist. -/
def typo : Config := fun s => if s = "t".toList then some [("verify".toList, "ful".toList)] else none

theorem typo_wellFormed : WellFormed typo := by
  intro s sec h
  unfold typo at h
  split at h
  · cases h; decide
  · cases h

theorem typo_ends (s : Str) : Ends typo 1 s := by
  refine .last fun t ⟨sec, h, ht⟩ => ?_
  unfold typo at h
  split at h
  · cases h; simp [importKey] at ht
  · cases h

/-- Nothing is verified. -/
example (f : Files) : ∃ cp, verify f ⟨"t".toList, [], [], [], 1⟩ typo = .ok cp :=
  verify_unknown_partial f ⟨"t".toList, [], [], [], 1⟩ typo_wellFormed .init typo_ends "ful".toList (.own ⟨_, rfl, by decide⟩) (by decide) (by decide)

/-- A file with one state of two levels, and one with the same state three times, all at the same time. -/
noncomputable def stateFiles : Files where
  text := fun _ => none
  float := fun _ => none
  state := fun s => .ok (if s = "long".toList then (⟨[3, 2], fun i => some (if i.getD 1 0 = 0 then 1 else Complex.I)⟩, ⟨[3], fun _ => some 7⟩)
    else (⟨[1, 2], fun i => some (if i.getD 1 0 = 0 then 1 else Complex.I)⟩, ⟨[1], fun _ => some 7⟩))

/-- Files with different numbers of states pass. -/
example : verifyState stateFiles "short".toList "long".toList = .ok () ∧ verifyState stateFiles "long".toList "short".toList = .ok () := by
  have h := verifyState_single_partial stateFiles "short".toList "long".toList _ _ rfl rfl [2] 3 (by simp) (by simp) (by simp) (by simp)
  have hc : ∀ {E : Type} [NormedAddCommGroup E] (x : E), isClose (some x) (some x) := fun x => by simp only [isClose, sub_self, norm_zero]; positivity
  exact ⟨h.1.2 fun k _ => ⟨fun i _ => by simpa using hc _, by simpa using hc _⟩, h.2.2 fun k _ => ⟨fun i _ => by simpa using hc _, by simpa using hc _⟩⟩

end CppQED.TestDriver
