import Verif.Model.Commenting
import Mathlib.Tactic

/-!
# Commented output: C48
-/

namespace CppQED.Spec
open CppQED.Commenting

/-- Lines as text. -/
def unlines (ls : List Str) : Str := ls.flatMap fun l => l ++ ['\n']

/-- A line of comment. -/
def marked (l : Str) : Str := if l = [] then [] else ['#', ' '] ++ l

/-- A write consisting of full lines, in whatever chunks: the lines it has to add to the file. -/
def AddsLines : Write → List Str → Prop
  | .comment _ chunks, ls => ∃ ls', (∀ l ∈ ls', '\n' ∉ l) ∧ chunks.flatten = unlines ls' ∧ ls = ls'.map marked
  | .data text, ls => (∀ l ∈ ls, '\n' ∉ l) ∧ text = unlines ls

/-- The lines of data of a write. -/
def dataLines : Write → List Str → List Str
  | .comment _ _, _ => []
  | .data _, ls => ls

/-- Not a comment line and not empty. -/
def isData (l : Str) : Bool := match l with
  | [] => false
  | c :: _ => c != '#'

end CppQED.Spec

namespace CppQED.Commenting
open CppQED.Spec

theorem put_begin_eol : put .lineBegin '\n' = (.lineBegin, ['\n']) := rfl
theorem put_within_eol : put .withinLine '\n' = (.lineBegin, ['\n']) := rfl
theorem put_begin {c : Char} (h : c ≠ '\n') : put .lineBegin c = (.withinLine, ['#', ' ', c]) := by
  simp [put, processEvent, transitionTable, Class.test, h, pushFirstCharInLine, commentChar]
theorem put_within {c : Char} (h : c ≠ '\n') : put .withinLine c = (.withinLine, [c]) := by
  simp [put, processEvent, transitionTable, Class.test, h, push]

theorem putChunk_append (st : State × Str) (a b : Str) : putChunk st (a ++ b) = putChunk (putChunk st a) b := by simp [putChunk]

/-- The chunks do not matter. -/
theorem foldl_chunks (st : State × Str) (chunks : List Str) : chunks.foldl putChunk st = putChunk st chunks.flatten := by
  induction chunks generalizing st with
  | nil => rfl
  | cons c cs ih => rw [List.foldl_cons, ih, List.flatten_cons, putChunk_append]

theorem putChunk_within (out l : Str) (h : '\n' ∉ l) : putChunk (.withinLine, out) l = (.withinLine, out ++ l) := by
  induction l generalizing out with
  | nil => simp [putChunk]
  | cons c l ih =>
    rw [List.mem_cons, not_or] at h
    have e : putChunk (.withinLine, out) (c :: l) = putChunk (.withinLine, out ++ [c]) l := by
      simp only [putChunk, List.foldl_cons, put_within (Ne.symm h.1)]
    rw [e, ih _ h.2]; simp

theorem putChunk_line (out l : Str) (h : '\n' ∉ l) : putChunk (.lineBegin, out) (l ++ ['\n']) = (.lineBegin, out ++ (marked l ++ ['\n'])) := by
  cases l with
  | nil => simp [putChunk, put_begin_eol, marked]
  | cons c l =>
    rw [List.mem_cons, not_or] at h
    have e : putChunk (.lineBegin, out) ((c :: l) ++ ['\n']) = putChunk (.withinLine, out ++ ['#', ' ', c]) (l ++ ['\n']) := by
      simp only [putChunk, List.cons_append, List.foldl_cons, put_begin (Ne.symm h.1)]
    rw [e, putChunk_append, putChunk_within _ _ h.2]
    simp [putChunk, put_within_eol, marked]

theorem putChunk_lines (out : Str) (ls : List Str) (h : ∀ l ∈ ls, '\n' ∉ l) : putChunk (.lineBegin, out) (unlines ls) = (.lineBegin, out ++ unlines (ls.map marked)) := by
  induction ls generalizing out with
  | nil => simp [putChunk, unlines]
  | cons l ls ih =>
    have e : unlines (l :: ls) = (l ++ ['\n']) ++ unlines ls := by simp [unlines]
    rw [e, putChunk_append, putChunk_line _ _ (h l (List.mem_cons_self ..)), ih _ fun l' hl' => h l' (List.mem_cons_of_mem _ hl')]
    simp [unlines]

/-- **C48.** Whatever the chunks: the lines written into a commenting stream get into the file with the mark, the empty ones as they are. -/
theorem comment_marked (k : ℕ) (f : File) (hf : f.states k = .lineBegin) (chunks : List Str) (ls : List Str) (hl : ∀ l ∈ ls, '\n' ∉ l) (hc : chunks.flatten = unlines ls) :
    (f.write (.comment k chunks)).content = f.content ++ unlines (ls.map marked) ∧ (f.write (.comment k chunks)).states = f.states := by
  simp only [File.write]
  rw [foldl_chunks, hc, hf, putChunk_lines _ _ hl]
  exact ⟨by simp, by funext j; by_cases h : j = k <;> simp [h, hf]⟩

/-- **C48.** The content of a file made by any number of writes of full lines into any commenting streams and the file itself: every line of comments is marked (or empty), data are written as they are. -/
theorem file_lines (ws : List (Write × List Str)) (h : ∀ w ∈ ws, AddsLines w.1 w.2) (f : File) (hf : ∀ k, f.states k = .lineBegin) :
    (ws.foldl (fun f w => f.write w.1) f).content = f.content ++ unlines (ws.flatMap Prod.snd) := by
  induction ws generalizing f with
  | nil => simp [unlines]
  | cons w ws ih =>
    obtain ⟨w, ls⟩ := w
    have hw := h _ (List.mem_cons_self ..)
    rw [List.foldl_cons]
    have key : (f.write w).content = f.content ++ unlines ls ∧ (f.write w).states = f.states := by
      cases w with
      | comment k chunks =>
        obtain ⟨ls', h1, h2, rfl⟩ := hw
        exact comment_marked k f (hf k) chunks ls' h1 h2
      | data text => exact ⟨by rw [← hw.2]; rfl, rfl⟩
    rw [ih (fun w' hw' => h w' (List.mem_cons_of_mem _ hw')) _ (by rw [key.2]; exact hf), key.1]
    simp [unlines]

theorem unlines_injective : ∀ {a b : List Str}, (∀ l ∈ a, '\n' ∉ l) → (∀ l ∈ b, '\n' ∉ l) → unlines a = unlines b → a = b := by
  intro a
  induction a with
  | nil =>
    intro b _ _ h
    cases b with
    | nil => rfl
    | cons l b => simp [unlines] at h
  | cons l a ih =>
    intro b ha hb h
    cases b with
    | nil => simp [unlines] at h
    | cons m b =>
      have hl := ha l (List.mem_cons_self ..)
      have hm := hb m (List.mem_cons_self ..)
      have e : l ++ '\n' :: unlines a = m ++ '\n' :: unlines b := by simpa [unlines] using h
      have key : ∀ (l m : Str) (_ : '\n' ∉ l) (_ : '\n' ∉ m) (x y : Str), l ++ '\n' :: x = m ++ '\n' :: y → l = m ∧ x = y := by
        intro l
        induction l with
        | nil =>
          intro m _ hm x y e
          cases m with
          | nil => simpa using e
          | cons c m => simp only [List.nil_append, List.cons_append, List.cons.injEq] at e; exact absurd (e.1 ▸ List.mem_cons_self ..) hm
        | cons c l ih =>
          intro m hl hm x y e
          cases m with
          | nil => simp only [List.nil_append, List.cons_append, List.cons.injEq] at e; exact absurd (e.1 ▸ List.mem_cons_self ..) hl
          | cons d m =>
            simp only [List.cons_append, List.cons.injEq] at e
            obtain ⟨e1, e2⟩ := ih m (fun h => hl (List.mem_cons_of_mem _ h)) (fun h => hm (List.mem_cons_of_mem _ h)) x y e.2
            exact ⟨by rw [e.1, e1], e2⟩
      obtain ⟨e1, e2⟩ := key l m hl hm _ _ e
      rw [e1, ih (fun l' hl' => ha l' (List.mem_cons_of_mem _ hl')) (fun l' hl' => hb l' (List.mem_cons_of_mem _ hl')) e2]

theorem noEol {w : Write} {ls : List Str} (h : AddsLines w ls) : ∀ l ∈ ls, '\n' ∉ l := by
  cases w with
  | comment k chunks =>
    obtain ⟨ls', h1, -, rfl⟩ := h
    intro l hl
    obtain ⟨l', hl', rfl⟩ := List.mem_map.1 hl
    unfold marked
    split_ifs
    · simp
    · simpa using h1 l' hl'
  | data text => exact h.1

/-- **C48.** Reading back the file and dropping the comments (and the empty lines) gives exactly the data, provided that these do not look like comments. -/
theorem data_recovered (ws : List (Write × List Str)) (h : ∀ w ∈ ws, AddsLines w.1 w.2) (hd : ∀ w ∈ ws, ∀ l ∈ dataLines w.1 w.2, isData l = true)
    (ls : List Str) (hls : ∀ l ∈ ls, '\n' ∉ l) (hc : (ws.foldl (fun f w => f.write w.1) File.empty).content = unlines ls) :
    ls.filter isData = ws.flatMap fun w => dataLines w.1 w.2 := by
  rw [file_lines ws h File.empty (fun _ => rfl)] at hc
  have e : ls = ws.flatMap Prod.snd := by
    refine (unlines_injective ?_ hls (by simpa [File.empty] using hc)).symm
    intro l hl
    obtain ⟨w, hw, hl⟩ := List.mem_flatMap.1 hl
    exact noEol (h w hw) l hl
  subst e
  clear hls hc
  induction ws with
  | nil => rfl
  | cons w ws ih =>
    rw [List.flatMap_cons, List.flatMap_cons, List.filter_append, ih (fun w' hw' => h w' (List.mem_cons_of_mem _ hw')) fun w' hw' => hd w' (List.mem_cons_of_mem _ hw')]
    congr 1
    obtain ⟨w, ls⟩ := w
    have hw := h _ (List.mem_cons_self ..)
    have hdw := hd _ (List.mem_cons_self ..)
    cases w with
    | comment k chunks =>
      obtain ⟨ls', -, -, rfl⟩ := hw
      simp only [dataLines, List.filter_eq_nil_iff]
      intro l hl
      obtain ⟨l', -, rfl⟩ := List.mem_map.1 hl
      unfold marked
      split_ifs <;> simp [isData]
    | data text => exact List.filter_eq_self.2 hdw

/-- A header in pieces, data, and a log message. -/
example : (([(.comment 0 [['a'], ['b', '\n', '\n', 'c'], ['\n']], [['#', ' ', 'a', 'b'], [], ['#', ' ', 'c']]), (.data ['1', '\n'], [['1']]), (.comment 1 [['x', '\n']], [['#', ' ', 'x']])] :
    List (Write × List Str)).foldl (fun f w => f.write w.1) File.empty).content = unlines [['#', ' ', 'a', 'b'], [], ['#', ' ', 'c'], ['1'], ['#', ' ', 'x']] := by
  rw [file_lines _ _ _ fun _ => rfl]
  · rfl
  · intro w hw
    simp only [List.mem_cons, List.not_mem_nil, or_false] at hw
    rcases hw with rfl | rfl | rfl
    · exact ⟨[['a', 'b'], [], ['c']], by decide, rfl, rfl⟩
    · exact ⟨by decide, rfl⟩
    · exact ⟨[['x']], by decide, rfl, rfl⟩

/-- The lines have to be finished: data after an unfinished comment get into the comment. -/
theorem unfinished_comment_swallows : ((File.empty.write (.comment 0 [['a']])).write (.data ['1', '\n'])).content = unlines [['#', ' ', 'a', '1']] := rfl

end CppQED.Commenting
