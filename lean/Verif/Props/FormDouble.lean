import Verif.Lemmas.FormDouble

/-!
# The output can be read back: C135 and C136
-/

namespace CppQED.FormDouble

/-! ## Single numbers -/

/-- **C135.** A number read back from the output differs from the one streamed by at most half a unit of the last of the significant digits. -/
theorem read_accuracy (p : ℤ) (v : Double) (hv : v.Valid) (hf : v.Finite) :
    |readNumber (plain p v) - v.value| ≤ 1 / 2 * (10 : ℝ) ^ (1 - effective p : ℤ) * |v.value| := by
  cases v with
  | nan s => exact hf.elim
  | inf s => exact hf.elim
  | fin s x =>
    have x0 : 0 ≤ x := by
      rcases hv with h | ⟨h, -⟩
      · exact h.ge
      · exact le_trans (by positivity) h
    set P := effective p with hP
    have P1 := effective_pos p
    have key : |readUnsigned (general P (sci P x).1 (sci P x).2) - x| ≤ 1 / 2 * (10 : ℝ) ^ (1 - P : ℤ) * x := by
      by_cases h0 : x = 0
      · rw [read_general P P1 _ _ (by subst h0; simp [sci])]
        subst h0
        simp [sci]
      · have := sci_spec P P1 x (lt_of_le_of_ne x0 (Ne.symm h0))
        rw [read_general P P1 _ _ this.1]
        exact this.2.1
    obtain ⟨c, r, hg, hc⟩ := general_head P P1 (sci P x).1 (sci P x).2
    cases s
    · have e : readNumber (plain p (.fin false x)) = readUnsigned (general P (sci P x).1 (sci P x).2) := by
        simp only [plain, sgn, ← hP, hg]
        have : c ≠ '-' := hc.ne.2.2.1
        simp only [Bool.false_eq_true, if_false, List.nil_append]
        unfold readNumber
        split
        · rename_i h; simp only [List.cons.injEq] at h; exact absurd h.1 this
        · rfl
      rw [e]
      simpa [Double.value, abs_of_nonneg x0] using key
    · have e : readNumber (plain p (.fin true x)) = -readUnsigned (general P (sci P x).1 (sci P x).2) := by
        simp [plain, sgn, ← hP, readNumber]
      rw [e]
      simp only [Double.value, if_true, abs_neg, abs_of_nonneg x0]
      rw [← neg_add', abs_neg, ← sub_eq_add_neg] at *
      exact key

/-! ## Rows and tables -/

/-- What a trajectory streams at one instant. -/
structure Row where
  t : Double
  dt : Double
  elements : List (List Double)
  measures : List Double

/-- Doubles; time and step have no sign. -/
structure Row.Valid (r : Row) : Prop where
  t : r.t.Valid ∧ r.t.Negative = false
  dt : r.dt.Valid ∧ r.dt.Negative = false
  elements : ∀ a ∈ r.elements, ∀ v ∈ a, v.Valid
  measures : ∀ v ∈ r.measures, v.Valid

/-- **C135.** The columns of infinite and undefined numbers are told from each other and from those of all the other numbers. -/
theorem read_special (p : ℤ) (v : Double) (s : Bool) :
    (plain p v = (if s then "-inf" else "inf").toList ↔ v = .inf s) ∧ (plain p v = (if s then "-nan" else "nan").toList ↔ v = .nan s) := by
  cases v with
  | nan r => cases r <;> cases s <;> simp [plain, sgn]
  | inf r => cases r <;> cases s <;> simp [plain, sgn]
  | fin r x =>
    have hn : 'n' ∉ plain p (.fin r x) := by
      intro h
      rcases List.mem_append.1 h with h | h
      · cases r <;> simp [sgn] at h
      · rcases general_chars _ _ _ _ h with ⟨d, hd, h⟩ | h | h | h | h
        · interval_cases d <;> simp [Nat.digitChar] at h
        all_goals simp at h
    constructor
    · exact iff_of_false (fun h => hn (by rw [h]; cases s <;> decide)) (by simp)
    · exact iff_of_false (fun h => hn (by rw [h]; cases s <;> decide)) (by simp)

theorem columns_common (p : ℤ) (hp : 0 ≤ p) (a : List Double) (ha : ∀ v ∈ a, v.Valid) (s : List Char) : columns (streamCommon p a ++ s) = a.map (plain p) ++ columns s := by
  unfold streamCommon
  rw [List.cons_append, columns_space _ (by decide)]
  induction a with
  | nil => rfl
  | cons v a ih =>
    rw [List.flatMap_cons, List.append_assoc, columns_bound p hp v (ha v (by simp)), ih fun v hv => ha v (by simp [hv])]
    rfl

theorem columns_elements (p : ℤ) (hp : 0 ≤ p) (l : List (List Double)) (hl : ∀ a ∈ l, ∀ v ∈ a, v.Valid) (s : List Char) : columns (l.flatMap (streamCommon p) ++ s) = l.flatten.map (plain p) ++ columns s := by
  induction l with
  | nil => rfl
  | cons a l ih =>
    rw [List.flatMap_cons, List.append_assoc, columns_common p hp a (hl a (by simp)), ih fun a ha => hl a (by simp [ha])]
    simp

theorem columns_measures (p : ℤ) (hp : 0 ≤ p) (a : List Double) (ha : ∀ v ∈ a, v.Valid) (s : List Char) : columns (streamMeasures p a ++ s) = a.map (plain p) ++ columns s := by
  unfold streamMeasures
  induction a with
  | nil => rfl
  | cons v a ih =>
    rw [List.flatMap_cons, List.append_assoc, List.cons_append, columns_space _ (by decide), columns_bound p hp v (ha v (by simp)), ih fun v hv => ha v (by simp [hv])]
    rfl

theorem columns_nil : columns [] = [] := by simp [columns]

theorem adjusted_newline (f : Form) (t : List Char) (h : ∀ c ∈ t, c ≠ '\n') : ∀ c ∈ adjusted f t, c ≠ '\n' := by
  intro c hc
  rcases List.mem_append.1 hc with hc | hc
  · exact h c hc
  · rw [(List.mem_replicate.1 hc).2]; decide

theorem bound_newline (f : Form) (v : Double) : ∀ c ∈ bound f v, c ≠ '\n' := adjusted_newline _ _ fun c hc => ((plain_chars _ v).2 c hc).2

/-- Texts ending with a newline each, and having no other one, are the lines of their concatenation. -/
theorem lines_flatMap {α : Type*} (rows : List α) (body : α → List Char) (h : ∀ r ∈ rows, ∀ c ∈ body r, c ≠ '\n') : lines (rows.flatMap fun r => body r ++ ['\n']) = rows.map body := by
  have : ∀ rows : List α, (∀ r ∈ rows, ∀ c ∈ body r, c ≠ '\n') → (rows.flatMap fun r => body r ++ ['\n']).splitOnP (· == '\n') = rows.map body ++ [[]] := by
    intro rows
    induction rows with
    | nil => intro _; simp
    | cons r rows ih =>
      intro h
      rw [List.flatMap_cons, List.append_assoc, List.singleton_append, List.splitOnP_append_cons_of_forall_mem (fun c hc => by simpa using h r (by simp) c hc) '\n' (by simp),
        ih fun r hr => h r (by simp [hr])]
      rfl
  rw [lines, this rows h]
  simp

/-- **C135.** The output of a run consists of one line per row, and each line of as many columns as there are quantities: time, step, the averages of the elements in turn, the entanglement measures; the column contains the number in
question. -/
theorem output_readable (p : ℤ) (hp : 0 ≤ p) (rows : List Row) (h : ∀ r ∈ rows, r.Valid) :
    (lines (rows.flatMap fun r => streamRow p r.t r.dt r.elements r.measures)).map columns =
      rows.map fun r => plain (max 6 p) r.t :: plain (max 6 p) r.dt :: (r.elements.flatten ++ r.measures).map (plain p) := by
  unfold streamRow
  rw [lines_flatMap rows (fun r => bound (positive p) r.t ++ bound (positive p) r.dt ++ r.elements.flatMap (streamCommon p) ++ streamMeasures p r.measures), List.map_map]
  · refine List.map_congr_left fun r hr => ?_
    have v := h r hr
    simp only [Function.comp, List.append_assoc]
    rw [columns_positive p _ v.t.1 v.t.2, columns_positive p _ v.dt.1 v.dt.2, columns_elements p hp _ v.elements, ← List.append_nil (streamMeasures p r.measures), columns_measures p hp _ v.measures, columns_nil]
    simp
  · intro r _ c hc
    simp only [List.mem_append, List.mem_flatMap] at hc
    rcases hc with ((hc | hc) | ⟨a, -, hc⟩) | hc
    · exact bound_newline _ _ c hc
    · exact bound_newline _ _ c hc
    · rcases List.mem_cons.1 hc with rfl | hc
      · decide
      · obtain ⟨v, -, hv⟩ := List.mem_flatMap.1 hc
        exact bound_newline _ _ c hv
    · obtain ⟨v, -, hv⟩ := List.mem_flatMap.1 hc
      rcases List.mem_cons.1 hv with rfl | hv
      · decide
      · exact bound_newline _ _ c hv

/-- **C135** for trajectories of ordinary differential equations. -/
theorem simulated_readable (p : ℤ) (hp : 0 ≤ p) (rows : List (Double × Double × List Double)) (h : ∀ r ∈ rows, (r.1.Valid ∧ r.1.Negative = false) ∧ (r.2.1.Valid ∧ r.2.1.Negative = false) ∧ ∀ v ∈ r.2.2, v.Valid) :
    (lines (rows.flatMap fun r => streamSimulated p r.1 r.2.1 r.2.2)).map columns = rows.map fun r => plain (max 6 p) r.1 :: plain (max 6 p) r.2.1 :: r.2.2.map (plain p) := by
  unfold streamSimulated
  rw [lines_flatMap rows (fun r => bound (positive p) r.1 ++ bound (positive p) r.2.1 ++ r.2.2.flatMap fun v => bound (form p) v ++ [' ']), List.map_map]
  · refine List.map_congr_left fun r hr => ?_
    obtain ⟨h1, h2, h3⟩ := h r hr
    simp only [Function.comp, List.append_assoc]
    rw [columns_positive p _ h1.1 h1.2, columns_positive p _ h2.1 h2.2]
    congr 2
    generalize r.2.2 = st at h3
    induction st with
    | nil => exact columns_nil
    | cons v st ih =>
      rw [List.flatMap_cons, List.append_assoc, columns_bound p hp v (h3 v (by simp)), List.singleton_append, columns_space _ (by decide), ih fun v hv => h3 v (by simp [hv])]
      rfl
  · intro r _ c hc
    simp only [List.mem_append, List.mem_flatMap] at hc
    rcases hc with (hc | hc) | ⟨v, -, hc | hc⟩
    · exact bound_newline _ _ c hc
    · exact bound_newline _ _ c hc
    · exact bound_newline _ _ c hc
    · rw [List.mem_singleton.1 hc]; decide

theorem plainComplex_chars (p : ℤ) (z : Double × Double) : plainComplex p z ≠ [] ∧ ∀ c ∈ plainComplex p z, isSpace c = false ∧ c ≠ '\n' := by
  refine ⟨by simp [plainComplex], fun c hc => ?_⟩
  simp only [plainComplex, List.cons_append, List.mem_cons, List.mem_append, List.not_mem_nil, or_false, List.append_assoc] at hc
  rcases hc with rfl | hc | rfl | hc | rfl
  · decide
  · exact (plain_chars p _).2 c hc
  · decide
  · exact (plain_chars p _).2 c hc
  · decide

/-- **C135** for complex amplitudes: the width does not leave room for a separating blank, but one is streamed explicitly. A complex number is one column, for any precision. -/
theorem simulatedComplex_readable (p : ℤ) (rows : List (Double × Double × List (Double × Double))) (h : ∀ r ∈ rows, (r.1.Valid ∧ r.1.Negative = false) ∧ (r.2.1.Valid ∧ r.2.1.Negative = false)) :
    (lines (rows.flatMap fun r => streamSimulatedComplex p r.1 r.2.1 r.2.2)).map columns = rows.map fun r => plain (max 6 p) r.1 :: plain (max 6 p) r.2.1 :: r.2.2.map (plainComplex p) := by
  unfold streamSimulatedComplex
  rw [lines_flatMap rows (fun r => bound (positive p) r.1 ++ bound (positive p) r.2.1 ++ r.2.2.flatMap fun z => adjusted (form p) (plainComplex p z) ++ [' ']), List.map_map]
  · refine List.map_congr_left fun r hr => ?_
    obtain ⟨h1, h2⟩ := h r hr
    simp only [Function.comp, List.append_assoc]
    rw [columns_positive p _ h1.1 h1.2, columns_positive p _ h2.1 h2.2]
    congr 2
    generalize r.2.2 = st
    induction st with
    | nil => exact columns_nil
    | cons z st ih =>
      obtain ⟨c1, c2⟩ := plainComplex_chars p z
      rw [List.flatMap_cons, adjusted]
      have e : ∀ s : List Char, columns (plainComplex p z ++ (List.replicate ((form p).width.toNat - (plainComplex p z).length) ' ' ++ ' ' :: s)) = plainComplex p z :: columns s := by
        intro s
        rcases Nat.eq_zero_or_pos ((form p).width.toNat - (plainComplex p z).length) with hk | hk
        · rw [hk, List.replicate_zero, List.nil_append, columns_token _ c1 (fun c hc => (c2 c hc).1) ' ' (by decide)]
        · obtain ⟨k, hk⟩ := Nat.exists_eq_succ_of_ne_zero hk.ne'
          rw [hk, List.replicate_succ, List.cons_append, columns_token _ c1 (fun c hc => (c2 c hc).1) ' ' (by decide), columns_spaces, columns_space _ (by decide)]
      simp only [List.append_assoc, List.singleton_append]
      rw [e, ih]
      rfl
  · intro r _ c hc
    simp only [List.mem_append, List.mem_flatMap] at hc
    rcases hc with (hc | hc) | ⟨z, -, hc | hc⟩
    · exact bound_newline _ _ c hc
    · exact bound_newline _ _ c hc
    · exact adjusted_newline _ _ (fun c hc => ((plainComplex_chars p z).2 c hc).2) c hc
    · rw [List.mem_singleton.1 hc]; decide

/-! ## Negative precision -/

theorem plain_sample (p : ℤ) (hp : p < 0) : plain p (.fin true 123456) = "-123456".toList := by
  have hP : effective p = 6 := by simp [effective, hp]
  have hX : ⌊Real.logb 10 (123456 : ℝ)⌋ = 5 := by
    rw [Int.floor_eq_iff]
    constructor
    · rw [Real.le_logb_iff_rpow_le (by norm_num) (by norm_num)]; norm_num
    · rw [Real.logb_lt_iff_lt_rpow (by norm_num) (by norm_num)]; norm_num
  have hs : sci 6 (123456 : ℝ) = (5, 123456) := by
    unfold sci
    rw [if_neg (by norm_num), hX]
    have : roundEven ((123456 : ℝ) * (10 : ℝ) ^ (((6 : ℕ) : ℤ) - 1 - 5)) = 123456 := by
      norm_num [roundEven]
    simp only [this]
    norm_num
  simp only [plain, hP, hs]
  decide

/-- **C136, violated.** A negative precision is accepted, and means that of the C library (6), whereas the width is calculated with the negative value: columns run into each other. -/
theorem negative_precision_partial (p : ℤ) (hp : p < 0) : ∃ v : Double, v.Valid ∧ v.Finite ∧ columns (streamCommon p [v, v]) = [plain p v ++ plain p v] := by
  refine ⟨.fin true 123456, .inr ⟨?_, ?_⟩, trivial, ?_⟩
  · calc (2 : ℝ) ^ (-1074 : ℤ) ≤ 2 ^ (0 : ℤ) := by gcongr <;> norm_num
      _ ≤ _ := by norm_num
  · calc (123456 : ℝ) < 2 ^ (17 : ℤ) := by norm_num
      _ ≤ _ := by gcongr <;> norm_num
  · have hw : ((form p).width.toNat - "-123456".toList.length) = 0 := by
      have : (form p).width = p + 7 + 1 := by simp only [form, widthAny, widthPositive_eq]
      rw [this]
      have : "-123456".toList.length = 7 := by decide
      omega
    simp only [streamCommon, bound, adjusted, List.flatMap_cons, List.flatMap_nil, List.append_nil, form, plain_sample p hp]
    simp only [form] at hw
    rw [hw]
    decide

/-! ## Examples -/

/-- Two rows: a qbit and a mode, with a negative, a tiny, an infinite and an undefined number. -/
example : (lines ([⟨.fin false 0, .fin false 0, [[.fin true 1, .inf true], [.nan false]], []⟩, ⟨.fin false 1, .fin false 1, [[.fin false 0]], [.fin false 1]⟩].flatMap
    fun r : Row => streamRow 3 r.t r.dt r.elements r.measures)).map (fun l => (columns l).length) = [5, 4] := by
  have one : (Double.fin false 1).Valid ∧ (Double.fin true 1).Valid := by
    have : (2 : ℝ) ^ (-1074 : ℤ) ≤ 1 ∧ (1 : ℝ) < 2 ^ (1024 : ℤ) :=
      ⟨zpow_le_one_of_nonpos₀ (by norm_num) (by norm_num), one_lt_zpow₀ (by norm_num) (by norm_num)⟩
    exact ⟨.inr this, .inr this⟩
  have zero : (Double.fin false 0).Valid := .inl rfl
  have := output_readable 3 (by norm_num) [⟨.fin false 0, .fin false 0, [[.fin true 1, .inf true], [.nan false]], []⟩, ⟨.fin false 1, .fin false 1, [[.fin false 0]], [.fin false 1]⟩] (by
    intro r hr
    simp only [List.mem_cons, List.not_mem_nil, or_false] at hr
    rcases hr with rfl | rfl <;> constructor <;> simp_all [Double.Negative, Double.Valid])
  have h := congrArg (List.map List.length) this
  simpa [Function.comp_def] using h

/-- Text of some numbers: digits of the two formats. -/
example : general 6 5 123456 = "123456".toList ∧ general 3 (-5) 120 = "1.2e-05".toList ∧ general 3 (-4) 123 = "0.000123".toList ∧ general 3 3 100 = "1e+03".toList ∧ general 6 1 314159 = "31.4159".toList ∧
    general 3 (-310) 494 = "4.94e-310".toList := by decide

end CppQED.FormDouble
