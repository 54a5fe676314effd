import Verif.Lemmas.PyText

/-!
# The output of trajectories in Python: C143 and C144
-/

namespace CppQED.PyText
open CppQED.Tridiag CppQED.FormDouble CppQED.Spec CppQED.Commenting

section Spec

/-- What gets into the output file of a trajectory: lines of comments, in any chunks and through any of the commenting streams, and rows of data. -/
inductive Event
  | comment (stream : ℕ) (chunks : List Str) (ls : List Str)
  | row (r : FormDouble.Row)

/-- The comments are full lines, the numbers in the rows are doubles. -/
def Event.Valid : Event → Prop
  | .comment _ chunks ls => (∀ l ∈ ls, '\n' ∉ l) ∧ chunks.flatten = unlines ls
  | .row r => r.Valid

/-- The row, if it is one. -/
def Event.row? : Event → Option FormDouble.Row
  | .comment _ _ _ => none
  | .row r => some r

/-- The quantities in a row. -/
def quantities (r : FormDouble.Row) : List Double := r.t :: r.dt :: (r.elements.flatten ++ r.measures)

/-- What is needed to know about `float`: decimal numbers in the formats of C++ are read, a word beginning with a parenthesis is not a number, neither is `Continuing`. -/
structure Float (float : Str → Option ℝ) : Prop where
  number : ∀ p v, v.Valid → v.Finite → float (plain p v) = some (readNumber (plain p v))
  nat : ∀ n, float (natText n) = some (n : ℝ)
  paren : ∀ s, float ('(' :: s) = none
  word : float "Continuing".toList = none

end Spec

theorem rowCells_length (p : ℤ) (r : FormDouble.Row) : ((rowCells p r).map readNumber).length = (quantities r).length := by
  simp only [rowCells, quantities, List.length_map, List.length_cons]

/-- The write of an event. -/
noncomputable def Event.write (p : ℤ) : Event → Write
  | .comment k chunks _ => .comment k chunks
  | .row r => .data (streamRow p r.t r.dt r.elements r.measures)

/-- The contents of the file after the events. -/
noncomputable def output (p : ℤ) (events : List Event) : Str := (events.foldl (fun f e => f.write (e.write p)) File.empty).content

/-- The lines that an event adds. -/
noncomputable def Event.lines (p : ℤ) : Event → List Str
  | .comment _ _ ls => ls.map marked
  | .row r => [rowBody p r]

theorem Event.adds (p : ℤ) (e : Event) (h : e.Valid) : AddsLines (e.write p) (e.lines p) := by
  cases e with
  | comment k chunks ls => exact ⟨ls, h.1, h.2, rfl⟩
  | row r =>
    refine ⟨?_, ?_⟩
    · intro l hl
      obtain rfl : l = rowBody p r := by simpa [Event.lines] using hl
      exact rowBody_noEol p r
    · show streamRow p r.t r.dt r.elements r.measures = unlines [rowBody p r]
      rw [streamRow_eq]
      simp [unlines]

theorem output_eq (p : ℤ) (events : List Event) (h : ∀ e ∈ events, e.Valid) : output p events = unlines (events.flatMap (Event.lines p)) := by
  have := file_lines (events.map fun e => (e.write p, e.lines p)) (by
    intro w hw
    obtain ⟨e, he, rfl⟩ := List.mem_map.1 hw
    exact e.adds p (h e he)) File.empty fun _ => rfl
  rw [List.foldl_map, List.flatMap_map] at this
  exact this

theorem lines_noEol (p : ℤ) (events : List Event) (h : ∀ e ∈ events, e.Valid) : ∀ l ∈ events.flatMap (Event.lines p), '\n' ∉ l := by
  intro l hl
  obtain ⟨e, he, hl⟩ := List.mem_flatMap.1 hl
  exact noEol (e.adds p (h e he)) l hl

theorem words_output (p : ℤ) (hp : 0 ≤ p) (events : List Event) (h : ∀ e ∈ events, e.Valid) :
    ((fileLines (output p events)).map fun l => split (cut (some '#') l)).filter (· ≠ []) = (events.filterMap Event.row?).map (rowCells p) := by
  have h0 := fileLines_unlines _ (lines_noEol p events h) []
  rw [List.append_nil] at h0
  rw [output_eq p events h, h0]
  show List.filter _ (List.map _ (List.map _ _ ++ [])) = _
  rw [List.append_nil, List.map_map]
  clear h0
  induction events with
  | nil => rfl
  | cons e events ih =>
    rw [List.flatMap_cons, List.map_append, List.filter_append, ih fun e he => h e (by simp [he])]
    have he := h e (by simp)
    cases e with
    | comment k chunks ls =>
      have : List.filter (fun x => decide (x ≠ [])) (List.map ((fun l => split (cut (some '#') l)) ∘ fun x => x ++ ['\n']) (ls.map marked)) = [] := by
        rw [List.filter_eq_nil_iff]
        intro w hw
        rw [List.map_map] at hw
        obtain ⟨l, -, rfl⟩ := List.mem_map.1 hw
        simp [Function.comp, words_marked l]
      rw [Event.lines, this]
      rfl
    | row r =>
      have : List.map ((fun l => split (cut (some '#') l)) ∘ fun x => x ++ ['\n']) (Event.lines p (.row r)) = [rowCells p r] := by
        show [split (cut (some '#') (rowBody p r ++ ['\n']))] = _
        rw [words_row p hp r he]
      rw [this]
      simp [rowCells, Event.row?]

/-- **C143.** The header of an output file is everything before the first row of data. -/
theorem evsHeader_spec (p : ℤ) (hp : 0 ≤ p) (header rest : List Event) (r : FormDouble.Row) (h : ∀ e ∈ header ++ .row r :: rest, e.Valid) (hc : ∀ e ∈ header, e.row? = none) :
    evsHeader (output p (header ++ .row r :: rest)) = output p header := by
  have hh : ∀ e ∈ header, e.Valid := fun e he => h e (by simp [he])
  have hr : r.Valid := h (.row r) (by simp)
  rw [output_eq p _ h, output_eq p _ hh]
  have h0 := fileLines_unlines _ (lines_noEol p _ h) []
  rw [List.append_nil] at h0
  unfold evsHeader
  rw [h0]
  show (List.takeWhile _ (_ ++ [])).flatten = _
  rw [List.append_nil, List.flatMap_append, List.map_append, List.takeWhile_append_of_pos]
  · have hb : (blank (rowBody p r ++ ['\n']) || startsWithHash (rowBody p r ++ ['\n'])) = false := by
      have h1 := words_row p hp r hr
      have hnh : '#' ∉ rowBody p r ++ ['\n'] := by
        intro h
        rcases List.mem_append.1 h with h | h
        · exact rowBody_noHash p r h
        · exact absurd h (by decide)
      have h2 : startsWithHash (rowBody p r ++ ['\n']) = false := by
        cases hl : rowBody p r ++ ['\n'] with
        | nil => rfl
        | cons c l =>
          rw [hl] at hnh
          simp only [startsWithHash, beq_eq_false_iff_ne, ne_eq]
          rintro rfl
          exact hnh (by simp)
      have h3 : blank (rowBody p r ++ ['\n']) = false := by
        obtain ⟨c, l, hc⟩ : ∃ c l, plain (positive p).precision r.t = c :: l := List.exists_cons_of_ne_nil (plain_chars _ _).1
        have hc2 := (plain_chars (positive p).precision r.t).2 c (by rw [hc]; simp)
        rw [Bool.eq_false_iff]
        intro hall
        have : c ∈ rowBody p r ++ ['\n'] := by
          simp [rowBody, bound, adjusted, hc]
        have := List.all_eq_true.1 hall c this
        simp only [Bool.or_eq_true, beq_iff_eq] at this
        rcases this with rfl | rfl
        · exact absurd hc2.1 (by decide)
        · exact hc2.2 rfl
      simp [h2, h3]
    have : List.takeWhile (fun l => blank l || startsWithHash l) (List.map (fun x => x ++ ['\n']) (List.flatMap (Event.lines p) (.row r :: rest))) = [] := by
      rw [List.flatMap_cons]
      show List.takeWhile _ ((rowBody p r ++ ['\n']) :: _) = []
      rw [List.takeWhile_cons, hb]; rfl
    rw [this, List.append_nil]
    simp [unlines, List.flatMap]
  · intro l hl
    obtain ⟨l', hl', rfl⟩ := List.mem_map.1 hl
    obtain ⟨e, he, hl'⟩ := List.mem_flatMap.1 hl'
    cases e with
    | row r' => exact absurd (hc _ he) (by simp [Event.row?])
    | comment k chunks ls =>
      obtain ⟨m, -, rfl⟩ := List.mem_map.1 hl'
      unfold marked
      by_cases hm : m = []
      · rw [if_pos hm]; rfl
      · rw [if_neg hm]; simp [startsWithHash]

theorem loadtxt_output {float : Str → Option ℝ} (hF : Float float) (p : ℤ) (hp : 0 ≤ p) (events : List Event) (h : ∀ e ∈ events, e.Valid) (m : ℕ)
    (hq : ∀ r ∈ events.filterMap Event.row?, (quantities r).length = m ∧ ∀ v ∈ quantities r, v.Finite) :
    loadtxt float (some '#') 0 none (output p events) = .ok (squeeze ((events.filterMap Event.row?).map fun r => (rowCells p r).map readNumber)) := by
  have hvalid : ∀ r ∈ events.filterMap Event.row?, r.Valid := by
    intro r hr
    obtain ⟨e, he, her⟩ := List.mem_filterMap.1 hr
    cases e with
    | comment _ _ _ => simp [Event.row?] at her
    | row r' =>
      obtain rfl : r' = r := by simpa [Event.row?] using her
      exact h _ he
  have hlen : ∀ r ∈ events.filterMap Event.row?, ((rowCells p r).map readNumber).length = m := by
    intro r hr
    rw [← (hq r hr).1]
    exact rowCells_length p r
  unfold loadtxt
  rw [List.drop_zero]
  simp only
  rw [words_output p hp events h, convertRows_ok (val := readNumber)]
  · simp only [List.map_map]
    rw [if_pos]
    · rfl
    · rw [List.all_eq_true]
      intro x hx
      obtain ⟨r, hr, rfl⟩ := List.mem_map.1 hx
      rw [beq_iff_eq]
      refine (hlen r hr).trans ?_
      cases hl : events.filterMap Event.row? with
      | nil => rw [hl] at hr; simp at hr
      | cons r0 rs => exact (hlen r0 (by rw [hl]; simp)).symm
  · intro cells hcells w hw
    obtain ⟨r, hr, rfl⟩ := List.mem_map.1 hcells
    have hv := hvalid r hr
    have hf := (hq r hr).2
    simp only [rowCells, List.mem_cons, List.mem_map] at hw
    rcases hw with rfl | rfl | ⟨v, hv', rfl⟩
    · exact hF.number _ _ hv.t.1 (hf _ (by simp [quantities]))
    · exact hF.number _ _ hv.dt.1 (hf _ (by simp [quantities]))
    · refine hF.number _ _ ?_ (hf _ (by simp only [quantities, List.mem_cons]; exact Or.inr (Or.inr hv')))
      rcases List.mem_append.1 hv' with hv' | hv'
      · obtain ⟨a, ha, hv'⟩ := List.mem_flatten.1 hv'
        exact hv.elements a ha v hv'
      · exact hv.measures v hv'

/-- **C143.** From the output of a trajectory – comments and at least two rows of data in any order, in any number of runs – `load_evs` returns for each of the quantities its values in all the rows, and the times, with the accuracy of the output. -/
theorem loadEvs_spec {float : Str → Option ℝ} (hF : Float float) (p : ℤ) (hp : 0 ≤ p) (events : List Event) (h : ∀ e ∈ events, e.Valid) (m : ℕ) (maxevs : Option ℕ)
    (hq : ∀ r ∈ events.filterMap Event.row?, (quantities r).length = m ∧ ∀ v ∈ quantities r, v.Finite) (h2 : 2 ≤ (events.filterMap Event.row?).length) :
    ∃ e, loadEvs float maxevs (output p events) = .ok e ∧ e.evs.length = m ∧ e.time.length = (events.filterMap Event.row?).length ∧ (∀ c ∈ e.evs, c.length = (events.filterMap Event.row?).length) ∧
      ∀ (i : ℕ) r, (events.filterMap Event.row?)[i]? = some r →
        (∃ t, e.time[i]? = some t ∧ |t - r.t.value| ≤ 1 / 2 * (10 : ℝ) ^ (1 - effective (max 6 p) : ℤ) * |r.t.value|) ∧
        ∀ (j : ℕ) (v : Double), (quantities r)[j]? = some v → ∃ (c : List ℝ) (x : ℝ), e.evs[j]? = some c ∧ c[i]? = some x ∧ |x - v.value| ≤ 1 / 2 * (10 : ℝ) ^ (1 - effective p : ℤ) * |v.value| := by
  have hl := loadtxt_output hF p hp events h m hq
  set rows := events.filterMap Event.row? with hrows
  obtain ⟨r0, r1, rest, he⟩ : ∃ r0 r1 rest, rows = r0 :: r1 :: rest := by
    rcases hr : rows with _ | ⟨r0, _ | ⟨r1, rest⟩⟩
    · rw [hr] at h2; simp at h2
    · rw [hr] at h2; simp at h2
    · exact ⟨_, _, _, rfl⟩
  set table : List (List ℝ) := rows.map fun r => (rowCells p r).map readNumber with htable
  have hvalid : ∀ r ∈ rows, r.Valid := by
    intro r hr
    obtain ⟨e, he, her⟩ := List.mem_filterMap.1 hr
    cases e with
    | comment _ _ _ => simp [Event.row?] at her
    | row r' =>
      obtain rfl : r' = r := by simpa [Event.row?] using her
      exact h _ he
  have hlen : ∀ r ∈ rows, ((rowCells p r).map readNumber).length = m := by
    intro r hr
    rw [← (hq r hr).1]
    exact rowCells_length p r
  have hm2 : 2 ≤ m := by
    rw [← hlen r0 (by rw [he]; simp)]
    simp [rowCells]
  have hsq : squeeze table = .table table := by
    rw [htable, he]
    refine squeeze_two _ _ _ ?_
    rw [hlen r0 (by rw [he]; simp)]; omega
  have hhead : (table.headD []).length = m := by
    rw [htable, he]
    exact hlen r0 (by rw [he]; simp)
  have hcol : ∀ j < m, table.filterMap (·[j]?) = rows.map fun r => ((rowCells p r).map readNumber).getD j 0 := by
    intro j hj
    rw [htable, List.filterMap_map]
    have : ∀ l : List FormDouble.Row, (∀ r ∈ l, r ∈ rows) → l.filterMap ((fun x : List ℝ => x[j]?) ∘ fun r => (rowCells p r).map readNumber) = l.map fun r => ((rowCells p r).map readNumber).getD j 0 := by
      intro l
      induction l with
      | nil => intro _; rfl
      | cons r l ih =>
        intro hl
        have hr := hlen r (hl r (by simp))
        have hj' : j < ((rowCells p r).map readNumber).length := by omega
        rw [List.filterMap_cons_some (b := ((rowCells p r).map readNumber)[j]) (by simp only [Function.comp]; exact List.getElem?_eq_getElem hj'), ih fun r hr => hl r (by simp [hr]), List.map_cons,
          List.getD_eq_getElem?_getD, List.getElem?_eq_getElem hj']
        rfl
    exact this rows fun r hr => hr
  refine ⟨⟨(List.range m).map fun j => table.filterMap (·[j]?), table.filterMap (·[0]?)⟩, ?_, by simp, ?_, ?_, ?_⟩
  · unfold loadEvs
    rw [hl, hsq]
    simp only [Outcome.bind]
    rw [hhead]
  · show (table.filterMap (·[0]?)).length = _
    rw [hcol 0 (by omega)]; simp
  · intro c hc
    obtain ⟨j, hj, rfl⟩ := List.mem_map.1 hc
    rw [hcol j (List.mem_range.1 hj)]; simp
  · intro i r hir
    have hi : i < rows.length := by
      by_contra hh
      rw [List.getElem?_eq_none (by omega)] at hir
      cases hir
    have hrm : r ∈ rows := List.mem_of_getElem? hir
    have hv := hvalid r hrm
    have hf := (hq r hrm).2
    refine ⟨⟨readNumber (plain (max 6 p) r.t), ?_, read_accuracy _ _ hv.t.1 (hf _ (by simp [quantities]))⟩, ?_⟩
    · show (table.filterMap (·[0]?))[i]? = _
      rw [hcol 0 (by omega), List.getElem?_map, hir]
      rfl
    · intro j v hjv
      have hjm : j < m := by
        rw [← (hq r hrm).1]
        by_contra hh
        rw [List.getElem?_eq_none (by omega)] at hjv
        cases hjv
      refine ⟨rows.map fun r => ((rowCells p r).map readNumber).getD j 0, ((rowCells p r).map readNumber).getD j 0, ?_, ?_, ?_⟩
      · show ((List.range m).map fun j => table.filterMap (·[j]?))[j]? = _
        rw [List.getElem?_map, List.getElem?_range hjm]
        simp only [Option.map_some]
        rw [hcol j hjm]
      · rw [List.getElem?_map, hir]; rfl
      · have hmono : ∀ x : ℝ, 1 / 2 * (10 : ℝ) ^ (1 - effective (max 6 p) : ℤ) * |x| ≤ 1 / 2 * (10 : ℝ) ^ (1 - effective p : ℤ) * |x| := by
          intro x
          refine mul_le_mul_of_nonneg_right (mul_le_mul_of_nonneg_left (zpow_le_zpow_right₀ (by norm_num) ?_) (by norm_num)) (abs_nonneg _)
          have : effective p ≤ effective (max 6 p) := by
            unfold effective
            split_ifs <;> omega
          omega
        match j, hjv with
        | 0, hjv =>
          obtain rfl : r.t = v := by simpa [quantities] using hjv
          exact (read_accuracy _ _ hv.t.1 (hf _ (by simp [quantities]))).trans (hmono _)
        | 1, hjv =>
          obtain rfl : r.dt = v := by simpa [quantities] using hjv
          exact (read_accuracy _ _ hv.dt.1 (hf _ (by simp [quantities]))).trans (hmono _)
        | j + 2, hjv =>
          have hjv' : (r.elements.flatten ++ r.measures)[j]? = some v := by simpa [quantities] using hjv
          have hmem : v ∈ r.elements.flatten ++ r.measures := List.mem_of_getElem? hjv'
          have hvv : v.Valid := by
            rcases List.mem_append.1 hmem with hv' | hv'
            · obtain ⟨a, ha, hv'⟩ := List.mem_flatten.1 hv'
              exact hv.elements a ha v hv'
            · exact hv.measures v hv'
          have hcell : ((rowCells p r).map readNumber).getD (j + 2) 0 = readNumber (plain p v) := by
            have : ((rowCells p r).map readNumber)[j + 2]? = some (readNumber (plain p v)) := by
              show (List.map readNumber ((r.elements.flatten ++ r.measures).map (plain p)))[j]? = _
              rw [List.getElem?_map, List.getElem?_map, hjv']
              rfl
            rw [List.getD_eq_getElem?_getD, this]
            rfl
          rw [hcell]
          exact read_accuracy _ _ hvv (hf _ (by simp only [quantities, List.mem_cons]; exact Or.inr (Or.inr hmem)))

/-- **C144.** But if there is only one row of data, then `load_evs` raises an exception. -/
theorem loadEvs_one_partial {float : Str → Option ℝ} (hF : Float float) (p : ℤ) (hp : 0 ≤ p) (events : List Event) (h : ∀ e ∈ events, e.Valid) (maxevs : Option ℕ) (r : FormDouble.Row)
    (hr : events.filterMap Event.row? = [r]) (hf : ∀ v ∈ quantities r, v.Finite) : loadEvs float maxevs (output p events) = .throw := by
  have hl := loadtxt_output hF p hp events h (quantities r).length (by rw [hr]; simpa using hf)
  unfold loadEvs
  rw [hl, hr, List.map_cons, List.map_nil, squeeze_one _ (by simp [rowCells])]
  rfl

theorem adjusted_noHash (f : Form) (t : Str) (h : '#' ∉ t) : '#' ∉ adjusted f t := by
  unfold adjusted
  intro hh
  rcases List.mem_append.1 hh with hh | hh
  · exact h hh
  · exact absurd (List.eq_of_mem_replicate hh) (by decide)

/-- **C144.** The output of the simulation of a complex array cannot be loaded: complex numbers are written with parentheses. -/
theorem loadEvs_complex_partial {float : Str → Option ℝ} (hF : Float float) (p : ℤ) (t dt : Double) (ht : (t.Valid ∧ t.Negative = false) ∧ dt.Valid ∧ dt.Negative = false) (state : List (Double × Double)) (hs : state ≠ [])
    (pre : List Str) (hpre : ∀ l ∈ pre, '\n' ∉ l) (rest : Str) (maxevs : Option ℕ) : loadEvs float maxevs (unlines pre ++ streamSimulatedComplex p t dt state ++ rest) = .throw := by
  set body : Str := bound (positive p) t ++ bound (positive p) dt ++ (state.flatMap fun z => adjusted (form p) (plainComplex p z) ++ [' ']) with hb
  have hsb : streamSimulatedComplex p t dt state = body ++ ['\n'] := rfl
  have hmem : ∀ c ∈ body, (∃ f v, c ∈ bound f v) ∨ (∃ z, c ∈ adjusted (form p) (plainComplex p z)) ∨ c = ' ' := by
    intro c hc
    simp only [hb, List.mem_append, List.mem_flatMap] at hc
    rcases hc with (hc | hc) | ⟨z, -, hc | hc⟩
    · exact Or.inl ⟨_, _, hc⟩
    · exact Or.inl ⟨_, _, hc⟩
    · exact Or.inr (Or.inl ⟨z, hc⟩)
    · exact Or.inr (Or.inr (by simpa using hc))
  have hn : '\n' ∉ body := by
    intro h
    rcases hmem _ h with ⟨f, v, h⟩ | ⟨z, h⟩ | h
    · exact bound_newline f v _ h rfl
    · exact adjusted_newline _ _ (fun c hc => ((plainComplex_chars p z).2 c hc).2) _ h rfl
    · exact absurd h (by decide)
  have hh : '#' ∉ body := by
    intro h
    rcases hmem _ h with ⟨f, v, h⟩ | ⟨z, h⟩ | h
    · exact bound_noHash f v h
    · refine adjusted_noHash _ _ ?_ h
      simp only [plainComplex, List.cons_append, List.mem_cons, List.mem_append, List.not_mem_nil, or_false, not_or]
      exact ⟨by decide, ⟨plain_noHash _ _, by decide, plain_noHash _ _⟩, by decide⟩
    · exact absurd h (by decide)
  have hcols : ∃ w, ∀ x, split (cut (some '#') (body ++ ['\n'])) = x → ('(' :: w) ∈ x := by
    rw [cut_noHash _ (by
      intro h
      rcases List.mem_append.1 h with h | h
      · exact hh h
      · exact absurd h (by decide)), split_line _ hn]
    have := simulatedComplex_readable p [(t, dt, state)] (by simpa using ht)
    have h2 : FormDouble.lines ([(t, dt, state)].flatMap fun r => streamSimulatedComplex p r.1 r.2.1 r.2.2) = [body] := by
      have := lines_flatMap [()] (fun _ => body) (by
        intro _ _ c hc e
        subst e
        exact hn hc)
      simpa [hsb] using this
    rw [h2] at this
    obtain ⟨z, zs, rfl⟩ := List.exists_cons_of_ne_nil hs
    simp only [List.map_cons, List.map_nil, List.cons.injEq, and_true] at this
    refine ⟨plain p z.1 ++ ',' :: plain p z.2 ++ [')'], fun x hx => ?_⟩
    rw [← hx, this]
    simp [plainComplex]
  obtain ⟨w, hw⟩ := hcols
  have hfl : fileLines (unlines pre ++ streamSimulatedComplex p t dt state ++ rest) = pre.map (· ++ ['\n']) ++ (body ++ ['\n']) :: fileLines rest := by
    rw [hsb, List.append_assoc, fileLines_unlines _ hpre]
    congr 1
    rw [List.append_assoc]
    exact fileLines_cons body rest hn
  have hnone : convertRows float none ((((fileLines (unlines pre ++ streamSimulatedComplex p t dt state ++ rest)).drop 0).map fun l => split (cut (some '#') l)).filter (· ≠ [])) = none := by
    refine convertRows_none (r := split (cut (some '#') (body ++ ['\n']))) ?_ ?_
    · rw [List.mem_filter]
      refine ⟨?_, ?_⟩
      · rw [List.drop_zero, hfl]
        exact List.mem_map.2 ⟨_, by simp, rfl⟩
      · have := hw _ rfl
        simp only [ne_eq, decide_not, Bool.not_eq_true', decide_eq_false_iff_not]
        intro h
        rw [h] at this
        simp at this
    · rw [select, Option.bind_some]
      exact convert_none (hw _ rfl) (hF.paren _)
  unfold loadEvs loadtxt
  simp only
  rw [hnone]
  rfl

/-! ## Jumps -/

theorem natText_chars (n : ℕ) : natText n ≠ [] ∧ ∀ c ∈ natText n, isSpace c = false ∧ c ≠ '\n' := by
  refine ⟨?_, fun c hc => ?_⟩
  · intro h
    have := congrArg List.length h
    simp [natText] at this
  · have := digs_dig _ _ c hc
    exact ⟨this.ne.2.2.2.2.2, this.ne.2.2.2.2.1⟩

/-- the words in the line of a jump -/
theorem words_jump (p : ℤ) (j : Double × ℕ) : split (marked (plain p j.1 ++ '\t' :: natText j.2) ++ ['\n']) = [['#'], plain p j.1, natText j.2] := by
  have hne : plain p j.1 ++ '\t' :: natText j.2 ≠ [] := by simp
  have hn : '\n' ∉ ['#', ' '] ++ (plain p j.1 ++ '\t' :: natText j.2) := by
    simp only [List.cons_append, List.nil_append, List.mem_cons, List.mem_append, not_or]
    exact ⟨by decide, by decide, fun h => ((plain_chars p j.1).2 _ h).2 rfl, by decide, fun h => ((natText_chars j.2).2 _ h).2 rfl⟩
  rw [marked, if_neg hne, split_line _ hn]
  show columns (['#'] ++ ' ' :: (plain p j.1 ++ '\t' :: natText j.2)) = _
  rw [columns_token ['#'] (by simp) (by decide) ' ' (by decide), columns_token _ (plain_chars p j.1).1 (fun c hc => ((plain_chars p j.1).2 c hc).1) '\t' (by decide),
    columns_last _ (natText_chars j.2).1 fun c hc => ((natText_chars j.2).2 c hc).1]

theorem jump_noEol (p : ℤ) (traj : List (Double × ℕ)) : ∀ l ∈ jumpLines p traj, '\n' ∉ l := by
  intro l hl
  simp only [jumpLines, List.cons_append, List.mem_cons, List.mem_append, List.mem_map, List.not_mem_nil, or_false] at hl
  rcases hl with rfl | ⟨j, -, rfl⟩ | rfl
  · decide
  · simp only [List.mem_append, List.mem_cons, not_or]
    exact ⟨fun h => ((plain_chars p j.1).2 _ h).2 rfl, by decide, fun h => ((natText_chars j.2).2 _ h).2 rfl⟩
  · simp

/-- The output ending with the log of the jumps: whatever has been written before (`pre`, the lines in the file), then the log at the end of the run, in whatever chunks, that begins with other lines (`log`). -/
noncomputable def loggedOutput (pre : List Str) (stream : ℕ) (chunks : List Str) : Str := ((⟨fun _ => .lineBegin, unlines pre⟩ : File).write (.comment stream chunks)).content

theorem loggedOutput_eq (p : ℤ) (pre log : List Str) (traj : List (Double × ℕ)) (stream : ℕ) (chunks : List Str) (hl : ∀ l ∈ log, '\n' ∉ l) (hc : chunks.flatten = unlines (log ++ jumpLines p traj)) :
    loggedOutput pre stream chunks = unlines (pre ++ (log ++ jumpLines p traj).map marked) := by
  have := (comment_marked stream ⟨fun _ => .lineBegin, unlines pre⟩ rfl chunks (log ++ jumpLines p traj) (by
    intro l hh
    rcases List.mem_append.1 hh with h | h
    · exact hl l h
    · exact jump_noEol p traj l h) hc).1
  rw [loggedOutput, this]
  simp [unlines]

theorem marked_noEol {l : Str} (h : '\n' ∉ l) : '\n' ∉ marked l := by
  unfold marked
  split_ifs
  · simp
  · simp [h]

/-- the lines that `loadtxt` gets in `load_jumps` -/
theorem loadJumps_eq {float : Str → Option ℝ} (p : ℤ) (pre log : List Str) (traj : List (Double × ℕ)) (rest : Str) (hp : ∀ l ∈ pre, '\n' ∉ l ∧ ¬ jumpsMarker <:+: l ++ ['\n']) (hl : ∀ l ∈ log, '\n' ∉ l ∧ ¬ jumpsMarker <:+: marked l ++ ['\n']) :
    ∃ k, loadJumps float (unlines (pre ++ (log ++ jumpLines p traj).map marked) ++ rest) = ((loadtxt float none (k + 1) (some [1, 2]) (unlines (pre ++ (log ++ jumpLines p traj).map marked) ++ rest)).bind fun r => .ok (some r)) ∧
      ((fileLines (unlines (pre ++ (log ++ jumpLines p traj).map marked) ++ rest)).drop (k + 1)).map (fun l => split (cut none l)) = (traj.map fun j => [['#'], plain p j.1, natText j.2]) ++ [] :: (fileLines rest).map fun l => split (cut none l) := by
  have hn : ∀ l ∈ pre ++ (log ++ jumpLines p traj).map marked, '\n' ∉ l := by
    intro l hh
    rcases List.mem_append.1 hh with h | h
    · exact (hp l h).1
    · obtain ⟨l', h', rfl⟩ := List.mem_map.1 h
      refine marked_noEol ?_
      rcases List.mem_append.1 h' with h | h
      · exact (hl l' h).1
      · exact jump_noEol p traj l' h
  set before : List Str := pre ++ log.map marked with hbefore
  have hsplit : fileLines (unlines (pre ++ (log ++ jumpLines p traj).map marked) ++ rest) =
      before.map (· ++ ['\n']) ++ (jumpsMarker ++ ['\n']) :: ((traj.map fun j => marked (plain p j.1 ++ '\t' :: natText j.2) ++ ['\n']) ++ ['\n'] :: fileLines rest) := by
    rw [fileLines_unlines _ hn]
    have : pre ++ (log ++ jumpLines p traj).map marked = before ++ (jumpsMarker :: ((traj.map fun j => marked (plain p j.1 ++ '\t' :: natText j.2)) ++ [[]])) := by
      rw [hbefore]
      simp only [List.map_append, List.append_assoc, jumpLines, List.cons_append, List.map_cons, List.map_map, List.map_nil]
      rfl
    rw [this]
    simp [Function.comp_def]
  have hidx : (fileLines (unlines (pre ++ (log ++ jumpLines p traj).map marked) ++ rest)).findIdx? (fun l => decide (jumpsMarker <:+: l)) = some before.length := by
    rw [hsplit, List.findIdx?_append, List.findIdx?_cons]
    have h1 : (before.map (· ++ ['\n'])).findIdx? (fun l => decide (jumpsMarker <:+: l)) = none := by
      rw [List.findIdx?_eq_none_iff]
      intro l hh
      obtain ⟨l', h', rfl⟩ := List.mem_map.1 hh
      rw [decide_eq_false_iff_not]
      rcases List.mem_append.1 h' with h | h
      · exact (hp l' h).2
      · obtain ⟨m, hm, rfl⟩ := List.mem_map.1 h
        exact (hl m hm).2
    have h2 : decide (jumpsMarker <:+: jumpsMarker ++ ['\n']) = true := by
      rw [decide_eq_true_iff]
      exact ⟨[], ['\n'], by simp⟩
    rw [h1, h2]
    simp
  refine ⟨before.length, ?_, ?_⟩
  · unfold loadJumps
    rw [hidx]
  · have hd : ∀ (m : Str) (B : List Str), (before.map (· ++ ['\n']) ++ m :: B).drop (before.length + 1) = B := by
      intro m B
      rw [show before.map (· ++ ['\n']) ++ m :: B = (before.map (· ++ ['\n']) ++ [m]) ++ B by simp]
      exact List.drop_left' (by simp)
    rw [hsplit, hd, List.map_append, List.map_map, List.map_cons]
    congr 1
    refine List.map_congr_left fun j _ => ?_
    exact words_jump p j

theorem convertRows_jumps {float : Str → Option ℝ} (hF : Float float) (p : ℤ) (traj : List (Double × ℕ)) (ht : ∀ j ∈ traj, j.1.Valid ∧ j.1.Finite) :
    convertRows float (some [1, 2]) (traj.map fun j => [['#'], plain p j.1, natText j.2]) = some (traj.map fun j => [readNumber (plain p j.1), (j.2 : ℝ)]) := by
  induction traj with
  | nil => rfl
  | cons j traj ih =>
    have hj := ht j (by simp)
    rw [List.map_cons, convertRows, ih fun j hj => ht j (by simp [hj])]
    have hs : select (some [1, 2]) [['#'], plain p j.1, natText j.2] = some [plain p j.1, natText j.2] := rfl
    rw [hs, Option.bind_some]
    have : convert float [plain p j.1, natText j.2] = some [readNumber (plain p j.1), (j.2 : ℝ)] := by
      simp only [convert, hF.number p j.1 hj.1 hj.2, hF.nat, Option.bind_some, Option.map_some]
    rw [this]
    rfl

theorem loadJumps_squeeze {float : Str → Option ℝ} (hF : Float float) (p : ℤ) (pre log : List Str) (traj : List (Double × ℕ)) (ht : ∀ j ∈ traj, j.1.Valid ∧ j.1.Finite) (stream : ℕ) (chunks : List Str)
    (hp : ∀ l ∈ pre, '\n' ∉ l ∧ ¬ jumpsMarker <:+: l ++ ['\n']) (hl : ∀ l ∈ log, '\n' ∉ l ∧ ¬ jumpsMarker <:+: marked l ++ ['\n']) (hc : chunks.flatten = unlines (log ++ jumpLines p traj)) :
    loadJumps float (loggedOutput pre stream chunks) = .ok (some (squeeze (traj.map fun j => [readNumber (plain p j.1), (j.2 : ℝ)]))) := by
  rw [loggedOutput_eq p pre log traj stream chunks (fun l h => (hl l h).1) hc]
  obtain ⟨k, h1, h2⟩ := loadJumps_eq (float := float) p pre log traj [] hp hl
  rw [List.append_nil] at h1 h2
  rw [h1]
  unfold loadtxt
  simp only
  rw [h2]
  have hfil : (List.map (fun j : Double × ℕ => [['#'], plain p j.1, natText j.2]) traj ++ [] :: List.map (fun l => split (cut none l)) (fileLines [])).filter (fun x => decide (x ≠ [])) = List.map (fun j : Double × ℕ => [['#'], plain p j.1, natText j.2]) traj := by
    rw [List.filter_append]
    have ha : (List.map (fun j : Double × ℕ => [['#'], plain p j.1, natText j.2]) traj).filter (fun x => decide (x ≠ [])) = List.map (fun j : Double × ℕ => [['#'], plain p j.1, natText j.2]) traj := by
      rw [List.filter_eq_self]
      intro x hx
      obtain ⟨j, -, rfl⟩ := List.mem_map.1 hx
      rfl
    rw [ha]
    simp [fileLines]
  rw [hfil, convertRows_jumps hF p traj ht]
  simp only
  rw [if_pos]
  · rfl
  · rw [List.all_eq_true]
    intro x hx
    obtain ⟨j, hj, rfl⟩ := List.mem_map.1 hx
    cases traj with
    | nil => simp at hj
    | cons j0 traj => rfl

/-- **C143.** From the output of a single run of a Monte Carlo trajectory with at least two jumps, `load_jumps` returns the times of the jumps, with the accuracy of the output, and the numbers of the channels, in the order of the jumps. From an output
without this log, the result is `None`. -/
theorem loadJumps_spec {float : Str → Option ℝ} (hF : Float float) (p : ℤ) (pre log : List Str) (traj : List (Double × ℕ)) (ht : ∀ j ∈ traj, j.1.Valid ∧ j.1.Finite) (stream : ℕ) (chunks : List Str)
    (hp : ∀ l ∈ pre, '\n' ∉ l ∧ ¬ jumpsMarker <:+: l ++ ['\n']) (hl : ∀ l ∈ log, '\n' ∉ l ∧ ¬ jumpsMarker <:+: marked l ++ ['\n']) (hc : chunks.flatten = unlines (log ++ jumpLines p traj)) (h2 : 2 ≤ traj.length) :
    (∃ times : List ℝ, loadJumps float (loggedOutput pre stream chunks) = .ok (some (.table (List.zipWith (fun t j => [t, ((j : ℕ) : ℝ)]) times (traj.map Prod.snd)))) ∧ times.length = traj.length ∧
      ∀ (i : ℕ) (t : ℝ) (j : Double × ℕ), times[i]? = some t → traj[i]? = some j → |t - j.1.value| ≤ 1 / 2 * (10 : ℝ) ^ (1 - effective p : ℤ) * |j.1.value|) ∧
    loadJumps float (unlines pre) = .ok none := by
  refine ⟨⟨traj.map fun j => readNumber (plain p j.1), ?_, by simp, ?_⟩, ?_⟩
  · rw [loadJumps_squeeze hF p pre log traj ht stream chunks hp hl hc]
    obtain ⟨a, b, rest, rfl⟩ : ∃ a b rest, traj = a :: b :: rest := by
      rcases hr : traj with _ | ⟨a, _ | ⟨b, rest⟩⟩
      · rw [hr] at h2; simp at h2
      · rw [hr] at h2; simp at h2
      · exact ⟨_, _, _, rfl⟩
    rw [List.map_cons, List.map_cons, squeeze_two _ _ _ (by simp)]
    congr 3
    rw [List.zipWith_map_left, List.zipWith_map_right]
    simp
  · intro i t j hi hj
    rw [List.getElem?_map, hj] at hi
    obtain rfl : readNumber (plain p j.1) = t := by simpa using hi
    have := ht j (List.mem_of_getElem? hj)
    exact read_accuracy _ _ this.1 this.2
  · unfold loadJumps
    have h0 := fileLines_unlines pre (fun l h => (hp l h).1) []
    rw [List.append_nil] at h0
    rw [h0]
    have : (List.map (fun x => x ++ ['\n']) pre ++ fileLines []).findIdx? (fun l => decide (jumpsMarker <:+: l)) = none := by
      show (List.map (fun x => x ++ ['\n']) pre ++ []).findIdx? _ = none
      rw [List.append_nil, List.findIdx?_eq_none_iff]
      intro l hh
      obtain ⟨l', h', rfl⟩ := List.mem_map.1 hh
      rw [decide_eq_false_iff_not]
      exact (hp l' h').2
    rw [this]

/-- **C144.** But with a single jump, what is returned is not an array with two axes (as documented) but one with one axis, containing the time and the channel; without jumps, it is an array with no elements. -/
theorem loadJumps_few_partial {float : Str → Option ℝ} (hF : Float float) (p : ℤ) (pre log : List Str) (stream : ℕ) (chunks : List Str)
    (hp : ∀ l ∈ pre, '\n' ∉ l ∧ ¬ jumpsMarker <:+: l ++ ['\n']) (hl : ∀ l ∈ log, '\n' ∉ l ∧ ¬ jumpsMarker <:+: marked l ++ ['\n']) :
    (∀ j : Double × ℕ, j.1.Valid → j.1.Finite → chunks.flatten = unlines (log ++ jumpLines p [j]) → loadJumps float (loggedOutput pre stream chunks) = .ok (some (.vector [readNumber (plain p j.1), (j.2 : ℝ)]))) ∧
    (chunks.flatten = unlines (log ++ jumpLines p []) → loadJumps float (loggedOutput pre stream chunks) = .ok (some (.vector []))) := by
  constructor
  · intro j h1 h2 hc
    rw [loadJumps_squeeze hF p pre log [j] (by simpa using ⟨h1, h2⟩) stream chunks hp hl hc]
    rfl
  · intro hc
    rw [loadJumps_squeeze hF p pre log [] (by simp) stream chunks hp hl hc]
    rfl

/-- **C144.** And the output of a trajectory that was resumed (so that the output goes on after the log of the first run with the line `Continuing from time …`) leads to an exception. -/
theorem loadJumps_resumed_partial {float : Str → Option ℝ} (hF : Float float) (p : ℤ) (pre log : List Str) (traj : List (Double × ℕ))
    (hp : ∀ l ∈ pre, '\n' ∉ l ∧ ¬ jumpsMarker <:+: l ++ ['\n']) (hl : ∀ l ∈ log, '\n' ∉ l ∧ ¬ jumpsMarker <:+: marked l ++ ['\n']) (text rest : Str) (htext : '\n' ∉ text) :
    loadJumps float (unlines (pre ++ (log ++ jumpLines p traj).map marked) ++ (unlines [marked ("Continuing from time ".toList ++ text)] ++ rest)) = .throw := by
  obtain ⟨k, h1, h2⟩ := loadJumps_eq (float := float) p pre log traj (unlines [marked ("Continuing from time ".toList ++ text)] ++ rest) hp hl
  rw [h1]
  unfold loadtxt
  simp only
  rw [h2]
  have hn : '\n' ∉ "Continuing from time ".toList ++ text := by
    intro h
    rcases List.mem_append.1 h with h | h
    · exact absurd h (by decide)
    · exact htext h
  have hline : split (cut none (marked ("Continuing from time ".toList ++ text) ++ ['\n'])) = ['#'] :: "Continuing".toList :: "from".toList :: "time".toList :: columns text := by
    rw [cut, split_line _ (marked_noEol hn), marked, if_neg (by simp)]
    show columns (['#'] ++ ' ' :: ("Continuing".toList ++ ' ' :: ("from".toList ++ ' ' :: ("time".toList ++ ' ' :: text)))) = _
    rw [columns_token ['#'] (by simp) (by decide) ' ' (by decide), columns_token _ (by decide) (by decide) ' ' (by decide), columns_token _ (by decide) (by decide) ' ' (by decide), columns_token _ (by decide) (by decide) ' ' (by decide)]
  have hnone : convertRows float (some [1, 2]) ((List.map (fun j : Double × ℕ => [['#'], plain p j.1, natText j.2]) traj ++ [] :: List.map (fun l => split (cut none l)) (fileLines (unlines [marked ("Continuing from time ".toList ++ text)] ++ rest))).filter (fun x => decide (x ≠ []))) = none := by
    refine convertRows_none (r := ['#'] :: "Continuing".toList :: "from".toList :: "time".toList :: columns text) ?_ ?_
    · rw [List.mem_filter]
      refine ⟨?_, by simp⟩
      rw [fileLines_unlines _ (by simpa using marked_noEol hn)]
      simp only [List.mem_append, List.mem_cons, List.map_cons, List.map_append]
      right; right; left; left
      exact hline.symm
    · show (convert float ["Continuing".toList, "from".toList]) = none
      rw [convert, hF.word]
      rfl
  rw [hnone]
  rfl

/-! ## Examples -/

/-- There is such a function: numbers begin with a digit or a minus sign. -/
noncomputable def sampleFloat : Str → Option ℝ
  | [] => none
  | c :: s => if c.isDigit || c == '-' then some (readNumber (c :: s)) else none

theorem isDigit_of_dig {c : Char} (h : Dig c) : c.isDigit = true := by
  obtain ⟨d, hd, rfl⟩ := h
  interval_cases d <;> decide

theorem sampleFloat_spec : Float sampleFloat where
  number := by
    intro p v _ hf
    cases v with
    | nan s => exact hf.elim
    | inf s => exact hf.elim
    | fin s x =>
      obtain ⟨d, r, hg, hd⟩ := general_head (effective p) (effective_pos p) (sci (effective p) x).1 (sci (effective p) x).2
      simp only [plain, hg]
      cases s
      · simp [sgn, sampleFloat, isDigit_of_dig hd]
      · simp [sgn, sampleFloat]
  nat := by
    intro n
    obtain ⟨c, l, hc⟩ : ∃ c l, natText n = c :: l := List.exists_cons_of_ne_nil (natText_chars n).1
    have hall : ∀ x ∈ natText n, Dig x := fun x hx => digs_dig _ _ x hx
    have hd : Dig c := hall c (by rw [hc]; simp)
    rw [hc, sampleFloat, isDigit_of_dig hd, Bool.true_or, if_pos rfl, ← hc]
    congr 1
    have hr : readNumber (natText n) = readUnsigned (natText n) := by
      rw [hc]
      unfold readNumber
      split
      · rename_i h
        exact absurd (List.cons.inj h).1 hd.ne.2.2.1
      · rfl
    have h1 : (natText n).takeWhile (fun c => decide (c ≠ 'e')) = natText n := List.takeWhile_eq_self_iff.2 fun x hx => by simpa using (hall x hx).ne.1
    have h2 : (natText n).dropWhile (fun c => decide (c ≠ 'e')) = [] := List.dropWhile_eq_nil_iff.2 fun x hx => by simpa using (hall x hx).ne.1
    have h3 : (natText n).takeWhile (fun c => decide (c ≠ '.')) = natText n := List.takeWhile_eq_self_iff.2 fun x hx => by simpa using (hall x hx).ne.2.1
    have h4 : (natText n).dropWhile (fun c => decide (c ≠ '.')) = [] := List.dropWhile_eq_nil_iff.2 fun x hx => by simpa using (hall x hx).ne.2.1
    rw [hr, readUnsigned, h1, h2, h3, h4]
    have : natOf (natText n) = n := by
      rw [natText, natOf_digs, Nat.mod_eq_of_lt (Nat.lt_pow_succ_log_self (by norm_num) _)]
    simp [this, expOf]
  paren := by intro s; rfl
  word := by decide

/-- Two rows with a comment before and between them. -/
example : ∃ e, loadEvs sampleFloat none (output 6 [.comment 0 ["Header".toList ++ ['\n']] ["Header".toList], .row ⟨.fin false 0, .fin false 0, [[.fin true 1]], []⟩, .comment 1 [['\n'], ['\n']] [[], []], .row ⟨.fin false 1, .fin false 1, [[.fin false 2]], []⟩]) = .ok e ∧
    e.evs.length = 3 ∧ e.time.length = 2 := by
  have hv : ∀ s : Bool, ∀ n : ℕ, n ≤ 2 → Double.Valid (.fin s n) := by
    intro s n hn
    rcases Nat.eq_zero_or_pos n with rfl | h0
    · exact Or.inl (by simp)
    · have h1 : (1 : ℝ) ≤ n := by exact_mod_cast h0
      have h2 : (n : ℝ) ≤ 2 := by exact_mod_cast hn
      refine Or.inr ⟨(zpow_le_one_of_nonpos₀ (by norm_num) (by norm_num)).trans h1, h2.trans_lt ?_⟩
      calc (2 : ℝ) = 2 ^ (1 : ℤ) := by norm_num
        _ < 2 ^ (1024 : ℤ) := zpow_lt_zpow_right₀ (by norm_num) (by norm_num)
  have h0 := hv false 0 (by norm_num)
  have h1 := hv false 1 (by norm_num)
  have h1' := hv true 1 (by norm_num)
  have h2 := hv false 2 (by norm_num)
  norm_num at h0 h1 h1' h2
  obtain ⟨e, he, h3, h4, -⟩ := loadEvs_spec sampleFloat_spec 6 (by norm_num) [.comment 0 ["Header".toList ++ ['\n']] ["Header".toList], .row ⟨.fin false 0, .fin false 0, [[.fin true 1]], []⟩, .comment 1 [['\n'], ['\n']] [[], []],
    .row ⟨.fin false 1, .fin false 1, [[.fin false 2]], []⟩] (by
      intro e he
      simp only [List.mem_cons, List.not_mem_nil, or_false] at he
      rcases he with rfl | rfl | rfl | rfl
      · exact ⟨by simp, by simp [unlines]⟩
      · exact ⟨⟨h0, rfl⟩, ⟨h0, rfl⟩, by simpa using h1', by simp⟩
      · exact ⟨by simp, by simp [unlines]⟩
      · exact ⟨⟨h1, rfl⟩, ⟨h1, rfl⟩, by simpa using h2, by simp⟩) 3 none (by
      intro r hr
      simp only [List.filterMap_cons, List.filterMap_nil, Event.row?, List.mem_cons, List.not_mem_nil, or_false] at hr
      rcases hr with rfl | rfl
      · refine ⟨rfl, ?_⟩
        intro v hv
        simp [quantities] at hv
        rcases hv with rfl | rfl <;> trivial
      · refine ⟨rfl, ?_⟩
        intro v hv
        simp [quantities] at hv
        rcases hv with rfl | rfl <;> trivial) (le_refl 2)
  exact ⟨e, he, h3, h4⟩

/-- Two jumps. -/
example : ∃ times : List ℝ, loadJumps sampleFloat (loggedOutput ["# Header".toList] 0 [unlines (["Total number of MCWF steps: 5".toList] ++ jumpLines 6 [(.fin false 1, 0), (.fin false 2, 3)])]) = .ok (some (.table (List.zipWith (fun t j => [t, ((j : ℕ) : ℝ)]) times [0, 3]))) := by
  have hv : ∀ n : ℝ, 1 ≤ n → n ≤ 2 → Double.Valid (.fin false n) := by
    intro n h1 h2
    refine Or.inr ⟨(zpow_le_one_of_nonpos₀ (by norm_num) (by norm_num)).trans h1, h2.trans_lt ?_⟩
    calc (2 : ℝ) = 2 ^ (1 : ℤ) := by norm_num
      _ < 2 ^ (1024 : ℤ) := zpow_lt_zpow_right₀ (by norm_num) (by norm_num)
  obtain ⟨⟨times, h, -⟩, -⟩ := loadJumps_spec sampleFloat_spec 6 ["# Header".toList] ["Total number of MCWF steps: 5".toList] [(.fin false 1, 0), (.fin false 2, 3)] (by
      intro j hj
      simp only [List.mem_cons, List.not_mem_nil, or_false] at hj
      rcases hj with rfl | rfl
      · exact ⟨hv 1 (by norm_num) (by norm_num), trivial⟩
      · exact ⟨hv 2 (by norm_num) (by norm_num), trivial⟩) 0 [unlines (["Total number of MCWF steps: 5".toList] ++ jumpLines 6 [(.fin false 1, 0), (.fin false 2, 3)])] (by decide) (by decide) (by simp) (by simp)
  exact ⟨times, h⟩

end CppQED.PyText
