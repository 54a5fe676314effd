import Verif.Model.TextIO
import Verif.Spec.Pars
import Mathlib.Tactic

/-!
# Text representation of enumerations and containers: C52
-/

namespace CppQED.Spec
open CppQED.TextIO CppQED.Pars

/-- Whatever was written and read back, possibly after whitespaces and followed by another word or nothing: the value is got back, exactly the word is consumed. -/
def EnumRoundTrip {E : Type} (wr : E → Str) (rd : IStream → E → IStream × E) : Prop :=
  ∀ (e e₀ : E) (sp rest : Str), (∀ c ∈ sp, isSpace c = true) → (rest = [] ∨ ∃ c r, rest = c :: r ∧ isSpace c = true) → rd ⟨sp ++ wr e ++ rest, true⟩ e₀ = (⟨rest, true⟩, e)

/-- Any other word, or no word at all, sets the error state and leaves the variable unchanged. A stream in error state as well. -/
def EnumRejects {E : Type} (wr : E → Str) (rd : IStream → E → IStream × E) : Prop :=
  (∀ (e₀ : E) (sp w rest : Str), (∀ c ∈ sp, isSpace c = true) → (∀ c ∈ w, isSpace c = false) → w ≠ [] → (rest = [] ∨ ∃ c r, rest = c :: r ∧ isSpace c = true) → (∀ e, w ≠ wr e) →
    (rd ⟨sp ++ w ++ rest, true⟩ e₀).1.ok = false ∧ (rd ⟨sp ++ w ++ rest, true⟩ e₀).2 = e₀) ∧
  (∀ (e₀ : E) (sp : Str), (∀ c ∈ sp, isSpace c = true) → (rd ⟨sp, true⟩ e₀).1.ok = false ∧ (rd ⟨sp, true⟩ e₀).2 = e₀) ∧
  ∀ (e₀ : E) (cs : Str), (rd ⟨cs, false⟩ e₀).1.ok = false ∧ (rd ⟨cs, false⟩ e₀).2 = e₀

/-- The text of an element is read back into an existing element fitting it (of the same size if it is itself a container) whenever it is followed by one of the given characters. -/
def ElementRoundTrip {α : Type} (fits : α → α → Prop) (wr : α → Str) (rd : IStream → α → IStream × α) (stop : List Char) : Prop :=
  ∀ (a a₀ : α), fits a a₀ → ∀ (sp : Str) (c : Char) (rest : Str), (∀ c ∈ sp, isSpace c = true) → c ∈ stop → rd ⟨sp ++ wr a ++ c :: rest, true⟩ a₀ = (⟨c :: rest, true⟩, a)

end CppQED.Spec

namespace CppQED.TextIO
open CppQED.Pars CppQED.Spec
open CppQED.ModeEl (Picture)
open CppQED.ParticleEl (MFT)

theorem dropWhile_sp {sp x : Str} (hs : ∀ c ∈ sp, isSpace c = true) : (sp ++ x).dropWhile isSpace = x.dropWhile isSpace := by
  induction sp with
  | nil => rfl
  | cons c sp ih =>
    rw [List.cons_append, List.dropWhile_cons, if_pos (hs c (List.mem_cons_self ..))]
    exact ih fun c hc => hs c (List.mem_cons_of_mem _ hc)

theorem word_spec {sp w rest : Str} (hs : ∀ c ∈ sp, isSpace c = true) (hw : ∀ c ∈ w, isSpace c = false) (hr : rest = [] ∨ ∃ c r, rest = c :: r ∧ isSpace c = true) (h0 : w ≠ []) :
    IStream.word ⟨sp ++ w ++ rest, true⟩ = (w, ⟨rest, true⟩) := by
  unfold IStream.word
  obtain ⟨c, w', rfl⟩ := List.exists_cons_of_ne_nil h0
  have e1 : (sp ++ (c :: w') ++ rest).dropWhile isSpace = (c :: w') ++ rest := by
    rw [List.append_assoc, dropWhile_sp hs, List.cons_append, List.dropWhile_cons, if_neg (by simp [hw c (List.mem_cons_self ..)])]
  have key : ∀ w : Str, (∀ c ∈ w, isSpace c = false) → (w ++ rest).takeWhile (fun c => !isSpace c) = w ∧ (w ++ rest).dropWhile (fun c => !isSpace c) = rest := by
    intro w hw
    induction w with
    | nil =>
      rcases hr with rfl | ⟨c, r, rfl, hc⟩
      · simp
      · simp [List.takeWhile_cons, List.dropWhile_cons, hc]
    | cons c w ih =>
      obtain ⟨h1, h2⟩ := ih fun c hc => hw c (List.mem_cons_of_mem _ hc)
      rw [List.cons_append, List.takeWhile_cons, List.dropWhile_cons]
      simp [hw c (List.mem_cons_self ..), h1, h2]
  obtain ⟨e2, e3⟩ := key _ hw
  simp only [e1, e2, e3]
  simp

theorem word_spaces {sp : Str} (hs : ∀ c ∈ sp, isSpace c = true) : IStream.word ⟨sp, true⟩ = ([], ⟨[], false⟩) := by
  have := dropWhile_sp (x := []) hs
  rw [List.append_nil] at this
  simp [IStream.word, this]

/-- **C52.** -/
theorem method_roundTrip : EnumRoundTrip writeMethod readMethod := by
  intro e e₀ sp rest hs hr
  have hw : ∀ c ∈ writeMethod e, isSpace c = false := by cases e <;> decide
  unfold readMethod
  rw [word_spec hs hw hr (by cases e <;> decide)]
  cases e <;> rfl

/-- **C52.** -/
theorem picture_roundTrip : EnumRoundTrip writePicture readPicture := by
  intro e e₀ sp rest hs hr
  have hw : ∀ c ∈ writePicture e, isSpace c = false := by cases e <;> decide
  unfold readPicture
  rw [word_spec hs hw hr (by cases e <;> decide)]
  cases e <;> rfl

/-- **C52.** -/
theorem modeFunction_roundTrip : EnumRoundTrip writeMF readMF := by
  intro e e₀ sp rest hs hr
  have hw : ∀ c ∈ writeMF e, isSpace c = false := by cases e <;> decide
  unfold readMF
  rw [word_spec hs hw hr (by cases e <;> decide)]
  cases e <;> rfl

theorem word_bad (cs : Str) : IStream.word ⟨cs, false⟩ = ([], ⟨cs, false⟩) := by simp [IStream.word]

/-- **C52.** -/
theorem method_rejects : EnumRejects writeMethod readMethod := by
  refine ⟨fun e₀ sp w rest hs hw h0 hr hn => ?_, fun e₀ sp hs => ?_, fun e₀ cs => ?_⟩
  · unfold readMethod
    rw [word_spec hs hw hr h0]
    have h0 : w ≠ "single".toList := hn .single
    have h1 : w ≠ "ensemble".toList := hn .ensemble
    have h2 : w ≠ "master".toList := hn .master
    dsimp only
    rw [if_neg h0, if_neg h1, if_pos h2]
    exact ⟨rfl, rfl⟩
  · unfold readMethod
    rw [word_spaces hs]
    simp [IStream.bad]
  · unfold readMethod
    rw [word_bad]
    simp [IStream.bad]

/-- **C52.** -/
theorem picture_rejects : EnumRejects writePicture readPicture := by
  refine ⟨fun e₀ sp w rest hs hw h0 hr hn => ?_, fun e₀ sp hs => by unfold readPicture; rw [word_spaces hs]; simp [IStream.bad], fun e₀ cs => by unfold readPicture; rw [word_bad]; simp [IStream.bad]⟩
  unfold readPicture
  rw [word_spec hs hw hr h0]
  have h0 := hn .ip
  have h1 := hn .uip
  have h2 := hn .sch
  simp only [writePicture] at h0 h1 h2
  simp only [if_neg h0, if_neg h1, if_pos h2]
  exact ⟨rfl, rfl⟩

/-- **C52.** -/
theorem modeFunction_rejects : EnumRejects writeMF readMF := by
  refine ⟨fun e₀ sp w rest hs hw h0 hr hn => ?_, fun e₀ sp hs => by unfold readMF; rw [word_spaces hs]; simp [IStream.bad], fun e₀ cs => by unfold readMF; rw [word_bad]; simp [IStream.bad]⟩
  unfold readMF
  rw [word_spec hs hw hr h0]
  have h0 := hn .sin
  have h1 := hn .cos
  have h2 := hn .plus
  have h3 := hn .minus
  simp only [writeMF] at h0 h1 h2 h3
  simp only [if_neg h0, if_neg h1, if_neg h2, if_pos h3]
  exact ⟨rfl, rfl⟩

/-- **C52.** The master equation is never solved in the non-unitary interaction picture; otherwise the picture asked for is kept. -/
theorem updateWithPicture_spec (m : Option Method) (q : Picture) :
    (m = some .master → updateWithPicture m q ≠ .ip) ∧ (¬ (m = some .master ∧ q = .ip) → updateWithPicture m q = q) ∧ (m = some .master ∧ q = .ip → updateWithPicture m q = .uip) := by
  rcases m with _ | m
  · simp [updateWithPicture]
  · cases m <;> cases q <;> simp [updateWithPicture]

/-! ## Containers -/

variable {α : Type}

theorem handle_ok {sp d cs : Str} {c : Char} (hs : ∀ c ∈ sp, isSpace c = true) (hc : isSpace c = false) (ht : trim d = [c]) : handleDelimiter ⟨sp ++ c :: cs, true⟩ d = ⟨cs, true⟩ := by
  unfold handleDelimiter
  rw [ht]
  simp [dropWhile_sp hs, List.dropWhile_cons, hc, expect]

theorem handle_wrong {sp d cs : Str} {c c' : Char} (hs : ∀ c ∈ sp, isSpace c = true) (hc : isSpace c = false) (ht : trim d = [c']) (hne : c ≠ c') : (handleDelimiter ⟨sp ++ c :: cs, true⟩ d).ok = false := by
  unfold handleDelimiter
  rw [ht]
  simp [dropWhile_sp hs, List.dropWhile_cons, hc, expect, hne]

theorem handle_bad {d cs : Str} : (handleDelimiter ⟨cs, false⟩ d).ok = false := by
  unfold handleDelimiter
  have : ∀ d : Str, (expect ⟨cs, false⟩ d).ok = false := by
    intro d
    induction d with
    | nil => rfl
    | cons c d ih => simpa [expect] using ih
  simpa using this _

theorem dropWhile_split (f : Char → Bool) (s : Str) : ∃ l, s = l ++ s.dropWhile f ∧ (∀ c ∈ l, f c = true) ∧ ∀ c, (s.dropWhile f).head? = some c → f c = false := by
  refine ⟨s.takeWhile f, (List.takeWhile_append_dropWhile).symm, fun c hc => (List.all_eq_true.1 List.all_takeWhile c hc), fun c hc => ?_⟩
  have := List.head?_dropWhile_not f s
  rw [hc] at this
  simpa using this

/-- **C52.** From the delimiters, the whitespaces on both sides are disregarded in reading, and nothing else. -/
theorem trim_spec (s : Str) : ∃ l r, s = l ++ trim s ++ r ∧ (∀ c ∈ l, isSpace c = true) ∧ (∀ c ∈ r, isSpace c = true) ∧
    (∀ c, (trim s).head? = some c → isSpace c = false) ∧ ∀ c, (trim s).getLast? = some c → isSpace c = false := by
  obtain ⟨r, h1, h2, h3⟩ := dropWhile_split isSpace s.reverse
  obtain ⟨l, g1, g2, g3⟩ := dropWhile_split isSpace (s.reverse.dropWhile isSpace).reverse
  change (s.reverse.dropWhile isSpace).reverse = l ++ trim s at g1
  change ∀ c, (trim s).head? = some c → isSpace c = false at g3
  have hs : s = (s.reverse.dropWhile isSpace).reverse ++ r.reverse := by
    have := congrArg List.reverse h1
    simpa using this
  refine ⟨l, r.reverse, by rw [← g1]; exact hs, g2, by simpa using h2, g3, fun c hc => ?_⟩
  apply h3
  rw [← List.getLast?_reverse, g1, List.getLast?_append, hc]
  rfl

theorem expect_bad (cs d : Str) : (expect ⟨cs, false⟩ d).ok = false := by
  induction d with
  | nil => rfl
  | cons c d ih => simpa [expect] using ih

theorem expect_iff (d : Str) : ∀ cs : Str, (expect ⟨cs, true⟩ d).ok = true ↔ d <+: cs := by
  induction d with
  | nil => intro cs; simp [expect]
  | cons c d ih =>
    intro cs
    cases cs with
    | nil => simp [expect, expect_bad]
    | cons x cs =>
      simp only [expect, if_true]
      by_cases h : x = c
      · rw [decide_eq_true h, ih, List.cons_prefix_cons]; simp [h]
      · rw [decide_eq_false h, expect_bad, List.cons_prefix_cons]; simp [Ne.symm h]

theorem expect_rest (d cs : Str) : expect ⟨d ++ cs, true⟩ d = ⟨cs, true⟩ := by
  induction d with
  | nil => rfl
  | cons c d ih => simpa [expect] using ih

/-- **C52.** For arbitrary delimiters: reading one succeeds exactly if, apart from whitespaces before, the stream continues with the delimiter without the whitespaces on its sides; in this case, exactly this is consumed. At the
end of the stream, reading fails. -/
theorem handleDelimiter_spec (cs d : Str) : ((handleDelimiter ⟨cs, true⟩ d).ok = true ↔ ∃ rest, cs.dropWhile isSpace = trim d ++ rest) ∧
    (∀ rest, cs.dropWhile isSpace = trim d ++ rest → handleDelimiter ⟨cs, true⟩ d = ⟨rest, true⟩) ∧ (handleDelimiter ⟨cs, false⟩ d).ok = false := by
  refine ⟨?_, fun rest h => ?_, handle_bad⟩
  · unfold handleDelimiter
    simp only [if_true, expect_iff]
    constructor
    · rintro ⟨r, hr⟩; exact ⟨r, hr.symm⟩
    · rintro ⟨r, hr⟩; exact ⟨r, hr.symm⟩
  · unfold handleDelimiter
    simp only [if_true, h, expect_rest]

example : handleDelimiter ⟨"  =>x".toList, true⟩ " => ".toList = ⟨"x".toList, true⟩ ∧ (handleDelimiter ⟨"  =".toList, true⟩ " => ".toList).ok = false := by
  constructor <;> rfl

/-- The single character delimiters of the kinds of containers, the whitespaces after the comma do not count in reading. -/
def Standard (d : Delims) (p c q : Char) : Prop :=
  d.pre = [p] ∧ d.delimiter = [c, ' '] ∧ d.post = [q] ∧ isSpace p = false ∧ isSpace c = false ∧ isSpace q = false

theorem trim_one {c : Char} (h : isSpace c = false) : trim [c] = [c] := by simp [trim, List.dropWhile_cons, h]

theorem trim_two {c : Char} (h : isSpace c = false) : trim [c, ' '] = [c] := by
  have : isSpace ' ' = true := by decide
  simp [trim, List.dropWhile_cons, h, this]

theorem readBody_write {d : Delims} {p c q : Char} (hd : Standard d p c q) {wr : α → Str} {rd : IStream → α → IStream × α} {fits : α → α → Prop} (he : ElementRoundTrip fits wr rd [c, q]) :
    ∀ (l l₀ : List α) (sp rest : Str), List.Forall₂ fits l l₀ → (∀ c ∈ sp, isSpace c = true) → l ≠ [] → readBody d rd ⟨sp ++ writeBody d wr l ++ q :: rest, true⟩ l₀ = (⟨q :: rest, true⟩, l) := by
  obtain ⟨h1, h2, h3, h4, h5, h6⟩ := hd
  intro l
  induction l with
  | nil => intro l₀ sp rest _ _ h; exact absurd rfl h
  | cons a l ih =>
    intro l₀ sp rest hl hs _
    match l, l₀, hl, ih with
    | [], [a₀], .cons hf _, _ =>
      simp only [readBody, writeBody]
      rw [he a a₀ hf sp q rest hs (by simp)]
    | b :: l, a₀ :: b₀ :: l₀, .cons hf hl, ih =>
      simp only [readBody, writeBody]
      have e : sp ++ (wr a ++ d.delimiter ++ writeBody d wr (b :: l)) ++ q :: rest = sp ++ wr a ++ c :: ([' '] ++ writeBody d wr (b :: l) ++ q :: rest) := by
        rw [h2]; simp
      rw [e, he a a₀ hf sp c _ hs (by simp)]
      dsimp only
      rw [show (c :: ([' '] ++ writeBody d wr (b :: l) ++ q :: rest) : Str) = [] ++ c :: ([' '] ++ writeBody d wr (b :: l) ++ q :: rest) from rfl, handle_ok (by simp) h5 (by rw [h2]; exact trim_two h5)]
      rw [ih (b₀ :: l₀) [' '] rest hl (by intro x hx; rw [List.mem_singleton] at hx; rw [hx]; decide) (by simp)]

/-- **C52.** A container written and read into a container of the same size (e.g. the default value of a parameter) gives back the same elements, and consumes exactly its own text: so containers of containers work, too. -/
theorem container_roundTrip {d : Delims} {p c q : Char} (hd : Standard d p c q) {wr : α → Str} {rd : IStream → α → IStream × α} {fits : α → α → Prop} (he : ElementRoundTrip fits wr rd [c, q])
    (l l₀ : List α) (hl : List.Forall₂ fits l l₀) (sp rest : Str) (hs : ∀ c ∈ sp, isSpace c = true) :
    readContainer d rd ⟨sp ++ writeContainer d wr l ++ rest, true⟩ l₀ = (⟨rest, true⟩, l) := by
  have hb := readBody_write hd he l l₀
  obtain ⟨h1, h2, h3, h4, h5, h6⟩ := hd
  unfold readContainer writeContainer
  have e : sp ++ (d.pre ++ writeBody d wr l ++ d.post) ++ rest = sp ++ p :: (writeBody d wr l ++ q :: rest) := by rw [h1, h3]; simp
  rw [e, handle_ok hs h4 (by rw [h1]; exact trim_one h4)]
  by_cases h0 : l = []
  · subst h0
    cases hl
    simp only [writeBody, readBody]
    rw [handle_ok (by simp) h6 (by rw [h3]; exact trim_one h6)]
  · have := hb [] rest hl (by simp) h0
    rw [List.nil_append] at this
    rw [this]
    dsimp only
    rw [show (q :: rest : Str) = [] ++ q :: rest from rfl, handle_ok (by simp) h6 (by rw [h3]; exact trim_one h6)]

theorem readBody_bad {d : Delims} {rd : IStream → α → IStream × α} (hrd : ∀ cs a, (rd ⟨cs, false⟩ a).1.ok = false) :
    ∀ (l : List α) (cs : Str), (readBody d rd ⟨cs, false⟩ l).1.ok = false := by
  intro l
  induction l with
  | nil => intro cs; rfl
  | cons a l ih =>
    intro cs
    match l, ih with
    | [], _ => exact hrd cs a
    | b :: l, ih =>
      have h1 := hrd cs a
      simp only [readBody]
      have h2 : (handleDelimiter (rd ⟨cs, false⟩ a).1 d.delimiter).ok = false := by
        rcases h : (rd ⟨cs, false⟩ a).1 with ⟨x, o⟩
        rw [h] at h1
        cases o
        · exact handle_bad
        · exact absurd h1 (by simp)
      rcases h : handleDelimiter (rd ⟨cs, false⟩ a).1 d.delimiter with ⟨x, o⟩
      rw [h] at h2
      cases o
      · exact ih x
      · exact absurd h2 (by simp)

/-- The reading of a non-empty text into a container of another, nonzero size. -/
theorem readBody_mismatch {d : Delims} {p c q : Char} (hd : Standard d p c q) (hcq : c ≠ q) {wr : α → Str} {rd : IStream → α → IStream × α} (he : ElementRoundTrip (fun _ _ => True) wr rd [c, q]) (hrd : ∀ cs a, (rd ⟨cs, false⟩ a).1.ok = false) :
    ∀ (l l₀ : List α) (sp rest : Str), l.length ≠ l₀.length → (∀ c ∈ sp, isSpace c = true) → l ≠ [] → l₀ ≠ [] →
      (handleDelimiter (readBody d rd ⟨sp ++ writeBody d wr l ++ q :: rest, true⟩ l₀).1 d.post).ok = false := by
  have hd' := hd
  obtain ⟨h1, h2, h3, h4, h5, h6⟩ := hd
  intro l
  induction l with
  | nil => intro l₀ sp rest _ _ h; exact absurd rfl h
  | cons a l ih =>
    intro l₀ sp rest hl hs _ h0
    match l, l₀, hl, h0, ih with
    | [], [a₀], hl, _, _ => exact absurd rfl hl
    | [], a₀ :: b₀ :: l₀, _, _, _ =>
      simp only [readBody, writeBody]
      rw [he a a₀ trivial sp q rest hs (by simp)]
      dsimp only
      have hw := handle_wrong (sp := []) (d := d.delimiter) (cs := rest) (by simp) h6 (by rw [h2]; exact trim_two h5) hcq.symm
      rw [List.nil_append] at hw
      rcases h : handleDelimiter ⟨q :: rest, true⟩ d.delimiter with ⟨x, o⟩
      rw [h] at hw
      cases o
      · have := readBody_bad (d := d) hrd (b₀ :: l₀) x
        rcases h' : (readBody d rd ⟨x, false⟩ (b₀ :: l₀)).1 with ⟨y, o'⟩
        rw [h'] at this
        cases o'
        · exact handle_bad
        · exact absurd this (by simp)
      · exact absurd hw (by simp)
    | b :: l, [a₀], _, _, _ =>
      simp only [readBody, writeBody]
      have e : sp ++ (wr a ++ d.delimiter ++ writeBody d wr (b :: l)) ++ q :: rest = sp ++ wr a ++ c :: ([' '] ++ writeBody d wr (b :: l) ++ q :: rest) := by
        rw [h2]; simp
      rw [e, he a a₀ trivial sp c _ hs (by simp)]
      dsimp only
      exact handle_wrong (sp := []) (by simp) h5 (by rw [h3]; exact trim_one h6) hcq
    | b :: l, a₀ :: b₀ :: l₀, hl, _, ih =>
      simp only [readBody, writeBody]
      have e : sp ++ (wr a ++ d.delimiter ++ writeBody d wr (b :: l)) ++ q :: rest = sp ++ wr a ++ c :: ([' '] ++ writeBody d wr (b :: l) ++ q :: rest) := by
        rw [h2]; simp
      rw [e, he a a₀ trivial sp c _ hs (by simp)]
      dsimp only
      rw [show (c :: ([' '] ++ writeBody d wr (b :: l) ++ q :: rest) : Str) = [] ++ c :: ([' '] ++ writeBody d wr (b :: l) ++ q :: rest) from rfl, handle_ok (by simp) h5 (by rw [h2]; exact trim_two h5)]
      exact ih (b₀ :: l₀) [' '] rest (by simpa using hl) (by intro x hx; rw [List.mem_singleton] at hx; rw [hx]; decide) (by simp) (by simp)

/-- **C52.** The size of the container is not read: the text of a container with another number of elements puts the stream into error state (both sizes nonzero). -/
theorem container_size {d : Delims} {p c q : Char} (hd : Standard d p c q) (hcq : c ≠ q) {wr : α → Str} {rd : IStream → α → IStream × α} (he : ElementRoundTrip (fun _ _ => True) wr rd [c, q]) (hrd : ∀ cs a, (rd ⟨cs, false⟩ a).1.ok = false)
    (l l₀ : List α) (hl : l.length ≠ l₀.length) (h0 : l ≠ []) (h0' : l₀ ≠ []) (sp rest : Str) (hs : ∀ c ∈ sp, isSpace c = true) :
    (readContainer d rd ⟨sp ++ writeContainer d wr l ++ rest, true⟩ l₀).1.ok = false := by
  have hb := readBody_mismatch hd hcq he hrd l l₀ [] rest hl (by simp) h0 h0'
  obtain ⟨h1, h2, h3, h4, h5, h6⟩ := hd
  unfold readContainer writeContainer
  have e : sp ++ (d.pre ++ writeBody d wr l ++ d.post) ++ rest = sp ++ p :: (writeBody d wr l ++ q :: rest) := by rw [h1, h3]; simp
  rw [e, handle_ok hs h4 (by rw [h1]; exact trim_one h4)]
  rw [List.nil_append] at hb
  exact hb

/-- **C52.** Another kind of container, or any other text: the first character has to be the prefix. -/
theorem container_prefix {d : Delims} {p c q x : Char} (hd : Standard d p c q) {rd : IStream → α → IStream × α} (hrd : ∀ cs a, (rd ⟨cs, false⟩ a).1.ok = false)
    (l₀ : List α) (sp rest : Str) (hs : ∀ c ∈ sp, isSpace c = true) (hx : isSpace x = false) (hp : x ≠ p) : (readContainer d rd ⟨sp ++ x :: rest, true⟩ l₀).1.ok = false := by
  obtain ⟨h1, h2, h3, h4, h5, h6⟩ := hd
  have hw := handle_wrong (sp := sp) (d := d.pre) (cs := rest) hs hx (by rw [h1]; exact trim_one h4) hp
  unfold readContainer
  rcases h : handleDelimiter ⟨sp ++ x :: rest, true⟩ d.pre with ⟨y, o⟩
  rw [h] at hw
  cases o
  · have := readBody_bad (d := d) hrd l₀ y
    rcases h' : readBody d rd ⟨y, false⟩ l₀ with ⟨⟨z, o'⟩, l⟩
    rw [h'] at this
    cases o'
    · simp only [h']
      exact handle_bad
    · exact absurd this (by simp)
  · exact absurd hw (by simp)

theorem standard_default : Standard defaultDelims '[' ',' ']' := by refine ⟨rfl, rfl, rfl, ?_⟩; decide
theorem standard_set : Standard setDelims '{' ',' '}' := by refine ⟨rfl, rfl, rfl, ?_⟩; decide
theorem standard_tuple : Standard tupleDelims '(' ',' ')' := by refine ⟨rfl, rfl, rfl, ?_⟩; decide

/-- An element whose text is a sequence of `x`-es as long as the value, for the examples: the reader stops at the first other character. -/
def wrTally (n : ℕ) : Str := '|' :: List.replicate n 'x'
def rdTally (s : IStream) (n : ℕ) : IStream × ℕ :=
  if s.ok then (match s.chars.dropWhile isSpace with
    | '|' :: cs => (⟨cs.dropWhile (· == 'x'), true⟩, (cs.takeWhile (· == 'x')).length)
    | cs => (⟨cs, false⟩, n)) else (s, n)

theorem tally_roundTrip (stop : List Char) (h : 'x' ∉ stop) : ElementRoundTrip (fun _ _ => True) wrTally rdTally stop := by
  intro a a₀ _ sp c rest hs hc
  have hcx : (c == 'x') = false := by
    rw [beq_eq_false_iff_ne]; rintro rfl; exact h hc
  have e1 : (sp ++ wrTally a ++ c :: rest).dropWhile isSpace = '|' :: (List.replicate a 'x' ++ c :: rest) := by
    rw [List.append_assoc, dropWhile_sp hs]
    simp [wrTally, List.dropWhile_cons, show isSpace '|' = false by decide]
  have e2 : ∀ a, (List.replicate a 'x' ++ c :: rest).dropWhile (· == 'x') = c :: rest ∧ (List.replicate a 'x' ++ c :: rest).takeWhile (· == 'x') = List.replicate a 'x' := by
    intro a
    induction a with
    | zero => simp [List.dropWhile_cons, List.takeWhile_cons, hcx]
    | succ a ih => simp [List.replicate_succ, List.dropWhile_cons, List.takeWhile_cons, ih.1, ih.2]
  unfold rdTally
  rw [if_pos rfl]
  simp only [e1, (e2 a).1, (e2 a).2, List.length_replicate]

theorem tally_bad (cs : Str) (a : ℕ) : (rdTally ⟨cs, false⟩ a).1.ok = false := by simp [rdTally]

/-- **C52.** Containers as elements of a container. -/
theorem nested {d : Delims} {p c q : Char} (hd : Standard d p c q) {wr : α → Str} {rd : IStream → α → IStream × α} {fits : α → α → Prop} (he : ElementRoundTrip fits wr rd [c, q]) (stop : List Char) :
    ElementRoundTrip (List.Forall₂ fits) (writeContainer d wr) (readContainer d rd) stop :=
  fun a a₀ hf sp _ rest hs _ => container_roundTrip hd he a a₀ hf sp _ hs

/-- The hypotheses of the theorems are satisfiable: a list of lists, in a concrete case. -/
example : readContainer setDelims (readContainer defaultDelims rdTally) ⟨" {[|xx, |], [|x, |xxx]} k".toList, true⟩ [[0, 0], [0, 0]] = (⟨" k".toList, true⟩, [[2, 0], [1, 3]]) :=
  container_roundTrip standard_set (nested standard_default (tally_roundTrip _ (by decide)) _) [[2, 0], [1, 3]] [[0, 0], [0, 0]] (by simp) [' '] " k".toList (by decide)

example : (readContainer defaultDelims rdTally ⟨"[|xx, |, |]".toList, true⟩ [0, 0]).1.ok = false :=
  container_size standard_default (by decide) (tally_roundTrip _ (by decide)) tally_bad [2, 0, 0] [0, 0] (by decide) (by simp) (by simp) [] [] (by simp)

/-- **C52.** The requirement about the text of the elements is necessary: the words of an enumeration get read together with the comma after them, so a list of pictures is not read back. -/
theorem enumContainer_fails : (readContainer defaultDelims readPicture ⟨writeContainer defaultDelims writePicture [.uip, .ip], true⟩ [.sch, .sch]).1.ok = false := by decide

end CppQED.TextIO
