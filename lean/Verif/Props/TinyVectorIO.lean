import Verif.Spec.TinyVectorIO
import Mathlib.Tactic.NormNum
import Mathlib.Algebra.Order.Archimedean.Real.Basic

/-! # C177, C178: texts of short vectors -/

namespace CppQED.TinyIO
open CppQED.Tridiag

theorem isBlank_iff (c : Char) : isBlank c = true ↔ c ∈ [' ', '\t', '\n', '\x0b', '\x0c', '\r'] := by
  simp [isBlank, or_assoc]

theorem skip_append {b : Str} (hb : Blanks b) (s : Str) : skip (b ++ s) = skip s := by
  induction b with
  | nil => rfl
  | cons c b ih =>
    have h : isBlank c = true := (isBlank_iff c).2 (hb c (by simp))
    unfold skip at *
    rw [List.cons_append, List.dropWhile_cons, if_pos h]
    exact ih fun c hc => hb c (by simp [hc])

theorem getChar_next {s : Str} {c : Char} {r : Str} : getChar s = some (c, r) ↔ Next s c r := by
  have hc : ∀ c, ¬ Blanks [c] ↔ isBlank c = false := fun c => by
    rw [← Bool.not_eq_true, isBlank_iff]
    simp [Blanks]
  constructor
  · intro h
    refine ⟨s.takeWhile isBlank, fun d hd => (isBlank_iff d).1 (List.all_eq_true.1 List.all_takeWhile d hd), ?_, ?_⟩
    · unfold getChar skip at h
      rw [hc]
      cases hs : s.dropWhile isBlank with
      | nil => simp [hs] at h
      | cons d t =>
        simp only [hs, Option.some.injEq, Prod.mk.injEq] at h
        have := List.head_dropWhile_not isBlank (l := s) (by rw [hs]; simp)
        simp only [hs, List.head_cons] at this
        rw [← h.1]
        exact this
    · unfold getChar skip at h
      cases hs : s.dropWhile isBlank with
      | nil => simp [hs] at h
      | cons d t =>
        simp only [hs, Option.some.injEq, Prod.mk.injEq] at h
        rw [← h.1, ← h.2, ← hs, List.takeWhile_append_dropWhile]
  · rintro ⟨b, hb, h1, rfl⟩
    unfold getChar
    rw [skip_append hb]
    have := (hc c).1 h1
    simp [skip, this]

theorem getChar_of {b : Str} (hb : Blanks b) {c : Char} (hc : isBlank c = false) (r : Str) : getChar (b ++ c :: r) = some (c, r) := by
  unfold getChar
  rw [skip_append hb]
  simp [skip, hc]

theorem separator_of (checks : Bool) {b : Str} (hb : Blanks b) {c : Char} (hc : isBlank c = false) (r : Str) : separator checks c (b ++ c :: r) = .ok r := by
  simp [separator, getChar_of hb hc]

theorem component_of {α : Type} {S : ScalarIO α} {T : α → Str → Prop} (h : Understands S T) {x : α} {t b r : Str} (ht : T x t) (hb : Blanks b) (hr : EndsNumber r) :
    component S (b ++ (t ++ r)) = .ok (x, r) := by
  simp [component, h.reads x t b r ht hb hr]

theorem endsNumber_blanks {b : Str} (hb : Blanks b) {c : Char} (hc : c = ',' ∨ c = ']' ∨ c = ')') (r : Str) : EndsNumber (b ++ c :: r) := by
  intro d hd
  cases b with
  | nil =>
    simp only [List.nil_append, List.head?_cons, Option.some.injEq] at hd
    subst hd
    rcases hc with rfl | rfl | rfl <;> simp
  | cons e b =>
    simp only [List.cons_append, List.head?_cons, Option.some.injEq] at hd
    subst hd
    have := hb e (by simp)
    simp only [List.mem_cons] at this ⊢
    tauto

theorem rest_ends {α : Type} {T : α → Str → Prop} {l : List α} {s : Str} (h : RestText T l s) (r : Str) : EndsNumber (s ++ r) := by
  cases h with
  | close b hb => simpa using endsNumber_blanks hb (c := ']') (by simp) r
  | next x l t b b' s ht hb hb' hs => simpa using endsNumber_blanks hb (c := ',') (by simp) _

theorem inputRest_of {α : Type} {S : ScalarIO α} {T : α → Str → Prop} (h : Understands S T) (checks : Bool) {l : List α} {s : Str} (hs : RestText T l s) (r : Str) :
    ∃ b, Blanks b ∧ inputRest S checks l.length (s ++ r) = .ok (l, b ++ ']' :: r) := by
  induction hs with
  | close b hb => exact ⟨b, hb, by simp [inputRest]⟩
  | next x l t b b' s ht hb hb' hs ih =>
    obtain ⟨b0, hb0, ih⟩ := ih
    refine ⟨b0, hb0, ?_⟩
    have e : b ++ ',' :: (b' ++ (t ++ s)) ++ r = b ++ ',' :: (b' ++ (t ++ (s ++ r))) := by simp
    rw [e, List.length_cons, inputRest, separator_of checks hb (by decide)]
    simp only [Outcome.bind]
    rw [component_of h ht hb' (rest_ends hs r)]
    simp only
    rw [ih]

/-- C177: every text of a vector is read as that vector, whether the checks are in effect or not, and what follows it is left in the stream. -/
theorem input_text {α : Type} {S : ScalarIO α} {T : α → Str → Prop} (h : Understands S T) (checks : Bool) {n : ℕ} {l : List α} {s : Str} (hs : VectorText T l s) (hn : l.length = n + 1) (r : Str) :
    input S checks n (s ++ r) = .ok (l, r) := by
  cases hs with
  | mk x l t b b' s ht hb hb' hs =>
    obtain rfl : l.length = n := by simpa using hn
    obtain ⟨b0, hb0, e0⟩ := inputRest_of h checks hs r
    have e : b ++ '[' :: (b' ++ (t ++ s)) ++ r = b ++ '[' :: (b' ++ (t ++ (s ++ r))) := by simp
    rw [e, input, separator_of checks hb (by decide)]
    simp only [Outcome.bind]
    rw [component_of h ht hb' (rest_ends hs r)]
    simp only
    rw [e0]
    simp only
    rw [separator_of checks hb0 (by decide)]

/-- C177: if the numbers are understood, then so are the complex numbers, in each of their three forms. -/
theorem complex_understands {S : ScalarIO ℝ} {T : ℝ → Str → Prop} (h : Understands S T) (hT : NumberTexts T) : Understands (complexIO S) (ComplexText T) := by
  refine ⟨fun z t b r ht hb hr => ?_⟩
  show complexRead S _ = _
  cases ht with
  | plain x t ht =>
    obtain ⟨c, u, rfl, hc⟩ := hT x t ht
    have h1 : isBlank c = false := by
      rw [← Bool.not_eq_true, isBlank_iff]
      exact fun h' => hc (List.mem_cons_of_mem _ h')
    have h2 : c ≠ '(' := fun h' => hc (by simp [h'])
    have hg := getChar_of hb h1 (u ++ r)
    have hrd := h.reads x _ b r ht hb hr
    simp only [List.cons_append] at hrd ⊢
    simp [complexRead, hg, h2, hrd]
  | single x t b1 b2 ht h1 h2 =>
    have hrd := h.reads x t b1 (b2 ++ ')' :: r) ht h1 (endsNumber_blanks h2 (by simp) r)
    simp [complexRead, getChar_of hb (c := '(') (by decide), hrd, complexTail, getChar_of h2 (c := ')') (by decide)]
  | both x y t t' b1 b2 b3 b4 ht ht' h1 h2 h3 h4 =>
    have hrd := h.reads x t b1 (b2 ++ ',' :: (b3 ++ (t' ++ (b4 ++ ')' :: r)))) ht h1 (endsNumber_blanks h2 (by simp) _)
    have hrd' := h.reads y t' b3 (b4 ++ ')' :: r) ht' h3 (endsNumber_blanks h4 (by simp) r)
    simp [complexRead, getChar_of hb (c := '(') (by decide), hrd, complexTail, getChar_of h2 (c := ',') (by decide), hrd', getChar_of h4 (c := ')') (by decide)]

theorem blanks_nil : Blanks [] := fun _ h => by simp at h

theorem outputRest_text {α : Type} {S : ScalarIO α} {T : α → Str → Prop} {v : α → α} (hv : ∀ x, T (v x) (S.write x)) (l : List α) : RestText T (l.map v) (outputRest S l ++ [']']) := by
  induction l with
  | nil => exact .close [] blanks_nil
  | cons x l ih => simpa [outputRest] using RestText.next (v x) (l.map v) (S.write x) [] [] _ (hv x) blanks_nil blanks_nil ih

/-- C177: a vector of at least one component can be written, and reading this gives back the vector, with the components as precise as they were written, and nothing of what follows is consumed. -/
theorem output_input {α : Type} {S : ScalarIO α} {T : α → Str → Prop} (h : Understands S T) {v : α → α} (hv : ∀ x, T (v x) (S.write x)) (checks : Bool) {n : ℕ} {l : List α} (hn : l.length = n + 1) :
    ∃ s, output S l = .ok s ∧ ∀ r, input S checks n (s ++ r) = .ok (l.map v, r) := by
  cases l with
  | nil => simp at hn
  | cons x l =>
    refine ⟨_, rfl, fun r => input_text h checks ?_ (by simpa using hn) r⟩
    simpa using VectorText.mk (v x) (l.map v) (S.write x) [] [] _ (hv x) blanks_nil blanks_nil (outputRest_text hv l)

/-- C177: complex numbers are written in a form which is understood, the parts as precise as real numbers are written. -/
theorem complex_written {S : ScalarIO ℝ} {T : ℝ → Str → Prop} {v : ℝ → ℝ} (hv : ∀ x, T (v x) (S.write x)) (z : ℝ × ℝ) : ComplexText T (v z.1, v z.2) ((complexIO S).write z) := by
  simpa [complexIO, complexWrite] using ComplexText.both (v z.1) (v z.2) (S.write z.1) (S.write z.2) [] [] [] [] (hv _) (hv _) blanks_nil blanks_nil blanks_nil blanks_nil

theorem separator_iff {checks : Bool} {e : Char} {s r : Str} : separator checks e s = .ok r ↔ ∃ c, Next s c r ∧ (checks = true → c = e) := by
  unfold separator
  constructor
  · intro h
    cases hg : getChar s with
    | none => simp [hg] at h
    | some p =>
      obtain ⟨c, s'⟩ := p
      simp only [hg] at h
      split_ifs at h with hc
      simp only [Outcome.ok.injEq] at h
      subst h
      refine ⟨c, getChar_next.1 hg, fun h' => ?_⟩
      simpa [h'] using hc
  · rintro ⟨c, h1, h2⟩
    rw [getChar_next.2 h1]
    cases checks with
    | false => simp
    | true => simp [h2 rfl]

theorem component_iff {α : Type} {S : ScalarIO α} {s : Str} {p : α × Str} : component S s = .ok p ↔ S.read s = some p := by
  unfold component
  cases S.read s <;> simp

theorem bind_ok {α β : Type} {o : Outcome α} {f : α → Outcome β} {b : β} : o.bind f = .ok b ↔ ∃ a, o = .ok a ∧ f a = .ok b := by
  cases o <;> simp [Outcome.bind]

theorem inputRest_iff {α : Type} {S : ScalarIO α} {checks : Bool} {n : ℕ} {s : Str} {l : List α} {r : Str} :
    inputRest S checks n s = .ok (l, r) ↔ l.length = n ∧ Parts S (fun e c => checks = true → c = e) l s r := by
  induction n generalizing s l with
  | zero =>
    constructor
    · intro h
      simp only [inputRest, Outcome.ok.injEq, Prod.mk.injEq] at h
      obtain ⟨rfl, rfl⟩ := h
      exact ⟨rfl, .nil _⟩
    · rintro ⟨hl, h⟩
      cases h with
      | nil => rfl
      | cons => simp at hl
  | succ n ih =>
    simp only [inputRest, bind_ok, separator_iff, component_iff]
    constructor
    · rintro ⟨s1, ⟨c, h1, h2⟩, ⟨x, s2⟩, h3, ⟨l', s3⟩, h4, h5⟩
      simp only [Outcome.ok.injEq, Prod.mk.injEq] at h5
      obtain ⟨rfl, rfl⟩ := h5
      obtain ⟨h6, h7⟩ := ih.1 h4
      exact ⟨by simp [h6], .cons x l' c s s1 s2 _ h1 h2 h3 h7⟩
    · rintro ⟨hl, h⟩
      cases h with
      | nil => simp at hl
      | cons x l' c _ s1 s2 _ h1 h2 h3 h7 => exact ⟨s1, ⟨c, h1, h2⟩, (x, s2), h3, (l', r), ih.2 ⟨by simpa using hl, h7⟩, rfl⟩

/-- C178: exactly which texts are read as which vectors: with the checks in effect those with brackets and commas, without them those with any characters in the place of the brackets and commas.
Missing from the property: that the first is the case. The checks are in effect only with `BZ_DEBUG`, which neither the build files nor the sources of the framework define. -/
theorem input_iff_partial {α : Type} (S : ScalarIO α) (checks : Bool) (n : ℕ) (s : Str) (l : List α) (r : Str) :
    input S checks n s = .ok (l, r) ↔ l.length = n + 1 ∧ Bracketed S (fun e c => checks = true → c = e) l s r := by
  simp only [input, bind_ok, separator_iff, component_iff]
  constructor
  · rintro ⟨s1, ⟨c, h1, h2⟩, ⟨x, s2⟩, h3, ⟨l', s3⟩, h4, s4, ⟨c', h5, h6⟩, h7⟩
    simp only [Outcome.ok.injEq, Prod.mk.injEq] at h7
    obtain ⟨rfl, rfl⟩ := h7
    obtain ⟨h8, h9⟩ := inputRest_iff.1 h4
    exact ⟨by simp [h8], .mk x l' c c' s s1 s2 s3 _ h1 h2 h3 h9 h5 h6⟩
  · rintro ⟨hl, h⟩
    cases h with
    | mk x l' c c' _ s1 s2 s3 _ h1 h2 h3 h9 h5 h6 => exact ⟨s1, ⟨c, h1, h2⟩, (x, s2), h3, (l', s3), inputRest_iff.2 ⟨by simpa using hl, h9⟩, r, ⟨c', h5, h6⟩, rfl⟩

/-- C178: with the checks in effect, a text is refused if its first character which is not white space is no bracket. -/
theorem input_refuses {α : Type} (S : ScalarIO α) (n : ℕ) {s : Str} {c : Char} {s' : Str} (hs : Next s c s') (hc : c ≠ '[') : ∀ l r, input S true n s ≠ .ok (l, r) := by
  intro l r h
  obtain ⟨-, h⟩ := (input_iff_partial S true n s l r).1 h
  cases h with
  | mk x l' c1 c' _ s1 s2 s3 _ h1 h2 =>
    have e := getChar_next.2 h1
    rw [getChar_next.2 hs] at e
    simp only [Option.some.injEq, Prod.mk.injEq] at e
    exact hc (e.1.trans (h2 rfl))

/-- C178: as the framework is built, a forgotten bracket is not noticed: the first character of the first number is dropped instead. Whatever character precedes the text of the number, the rest is read as if it had been a bracket. -/
theorem input_forgotten {α : Type} {S : ScalarIO α} {T : α → Str → Prop} (h : Understands S T) {n : ℕ} {x : α} {l : List α} {c : Char} (hc : ¬ Blanks [c]) {t s : Str} (ht : T x t) (hs : RestText T l s) (hn : l.length = n) (r : Str) :
    input S false n (c :: (t ++ s) ++ r) = .ok (x :: l, r) := by
  have ok := input_text h false (VectorText.mk x l t [] [] s ht blanks_nil blanks_nil hs) (n := n) (by simp [hn]) r
  rw [← ok]
  have e : ∀ d : Char, ¬ Blanks [d] → getChar (d :: (t ++ s) ++ r) = some (d, t ++ s ++ r) := fun d hd => getChar_next.2 ⟨[], blanks_nil, hd, by simp⟩
  have e1 := e c hc
  have e2 := e '[' (by simp [Blanks])
  simp only [List.cons_append, List.nil_append] at e1 e2 ⊢
  simp only [input, separator, e1, e2, Bool.false_and, Bool.false_eq_true, if_false]

/-! ## Examples: input and output of natural numbers -/

/-- Writes the integer part, reads decimal digits. -/
noncomputable def digitsIO : ScalarIO ℝ where
  write x := Nat.toDigits 10 ⌊x⌋₊
  read s := if (skip s).takeWhile Char.isDigit = [] then none else some ((Nat.ofDigitChars 10 ((skip s).takeWhile Char.isDigit) 0 : ℝ), (skip s).dropWhile Char.isDigit)

/-- A number and its digits. -/
def Digits (x : ℝ) (t : Str) : Prop := t ≠ [] ∧ (∀ c ∈ t, c.isDigit = true) ∧ x = Nat.ofDigitChars 10 t 0

theorem digits_start : NumberTexts Digits := by
  rintro x t ⟨h1, h2, -⟩
  cases t with
  | nil => exact absurd rfl h1
  | cons c t =>
    refine ⟨c, t, rfl, fun hc => ?_⟩
    have := h2 c (by simp)
    simp only [List.mem_cons, List.not_mem_nil, or_false] at hc
    rcases hc with rfl | rfl | rfl | rfl | rfl | rfl | rfl <;> revert this <;> decide

theorem digits_understood : Understands digitsIO Digits := by
  refine ⟨fun x t b r ht hb hr => ?_⟩
  have hd : ∀ c, r.head? = some c → c.isDigit = false := fun c hc => by
    have := hr c hc
    simp only [List.mem_cons, List.not_mem_nil, or_false] at this
    rcases this with rfl | rfl | rfl | rfl | rfl | rfl | rfl | rfl | rfl <;> decide
  have hs : skip (b ++ (t ++ r)) = t ++ r := by
    rw [skip_append hb]
    obtain ⟨c, u, rfl, hc⟩ := digits_start x t ht
    have : isBlank c = false := by
      rw [← Bool.not_eq_true, isBlank_iff]
      exact fun h' => hc (List.mem_cons_of_mem _ h')
    simp [skip, this]
  obtain ⟨h1, h2, rfl⟩ := ht
  have e1 : (t ++ r).takeWhile Char.isDigit = t := by
    rw [List.takeWhile_append_of_pos h2]
    cases r with
    | nil => simp
    | cons c r => simp [hd c rfl]
  have e2 : (t ++ r).dropWhile Char.isDigit = r := by
    rw [List.dropWhile_append_of_pos h2]
    cases r with
    | nil => simp
    | cons c r => simp [hd c rfl]
  simp [digitsIO, hs, e1, e2, h1]

theorem digits_written (x : ℝ) : Digits (⌊x⌋₊ : ℝ) (digitsIO.write x) :=
  ⟨Nat.toDigits_ne_nil, fun _ hc => Nat.isDigit_of_mem_toDigits (by decide) (by decide) hc, by
    show (⌊x⌋₊ : ℝ) = ((Nat.ofDigitChars 10 (Nat.toDigits 10 ⌊x⌋₊) 0 : ℕ) : ℝ)
    rw [Nat.ofDigitChars_toDigits (by decide) (by decide)]⟩

/-- Vectors of real and of complex numbers are read as they were written. -/
example (checks : Bool) (x y z : ℝ) : ∃ s, output digitsIO [x, y, z] = .ok s ∧ ∀ r, input digitsIO checks 2 (s ++ r) = .ok ([(⌊x⌋₊ : ℝ), (⌊y⌋₊ : ℝ), (⌊z⌋₊ : ℝ)], r) :=
  output_input digits_understood digits_written checks rfl
example (checks : Bool) (z w : ℝ × ℝ) : ∃ s, output (complexIO digitsIO) [z, w] = .ok s ∧
    ∀ r, input (complexIO digitsIO) checks 1 (s ++ r) = .ok ([((⌊z.1⌋₊ : ℝ), (⌊z.2⌋₊ : ℝ)), ((⌊w.1⌋₊ : ℝ), (⌊w.2⌋₊ : ℝ))], r) :=
  output_input (complex_understands digits_understood digits_start) (v := fun z => ((⌊z.1⌋₊ : ℝ), (⌊z.2⌋₊ : ℝ))) (complex_written digits_written) checks rfl

theorem digits_12 : Digits 12 ['1', '2'] := ⟨by decide, by decide, by
  have : Nat.ofDigitChars 10 ['1', '2'] 0 = 12 := by decide
  rw [this]; norm_num⟩
theorem digits_3 : Digits 3 ['3'] := ⟨by decide, by decide, by
  have : Nat.ofDigitChars 10 ['3'] 0 = 3 := by decide
  rw [this]; norm_num⟩

/-- ` [ 12 ,(3, 12)]` is a text of a complex vector. -/
example (checks : Bool) (r : Str) : input (complexIO digitsIO) checks 1 (" [ 12 ,(3, 12)]".toList ++ r) = .ok ([(12, 0), (3, 12)], r) := by
  have b0 : Blanks [] := blanks_nil
  have b1 : Blanks [' '] := by simp [Blanks]
  have h := VectorText.mk (T := ComplexText Digits) (12, 0) [(3, 12)] ['1', '2'] [' '] [' '] _ (.plain _ _ digits_12) b1 b1
    (.next (3, 12) [] _ [' '] [] _ (.both 3 12 ['3'] ['1', '2'] [] [] [' '] [] digits_3 digits_12 b0 b0 b1 b0) b1 b0 (.close [] b0))
  exact input_text (complex_understands digits_understood digits_start) checks h rfl r

/-- The vector `812,3]` without its opening bracket is read as `[12,3]`. -/
example (r : Str) : input digitsIO false 1 ("812,3]".toList ++ r) = .ok ([12, 3], r) :=
  input_forgotten digits_understood (c := '8') (by simp [Blanks]) digits_12 (.next 3 [] ['3'] [] [] _ digits_3 blanks_nil blanks_nil (.close [] blanks_nil)) rfl r

/-- With the checks it would be refused. -/
example : ∀ l r, input digitsIO true 1 "812,3]".toList ≠ .ok (l, r) := input_refuses digitsIO 1 (c := '8') ⟨[], blanks_nil, by simp [Blanks], rfl⟩ (by decide)

end CppQED.TinyIO
