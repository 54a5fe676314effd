import Mathlib.Data.List.Basic
import Mathlib.Data.List.Nodup

/-!
# Model of the parameter table and of the command-line parser

Sources: `/repo/CPPQEDutils/Pars.h`, `Pars.cc`, `BooleanNegatedProxy.h`. Strings are lists of characters. The type `V` comprises the values of all the typed parameters. The extraction `is>>v_` of a type is a
function `rd` getting the characters of the stream after the leading whitespaces, and returning the value and the number of consumed characters, or `none` if it sets the fail bit. Descriptions and column widths are not
modelled. `abort()` and `exit(0)` are separate outcomes.
-/

namespace CppQED.Pars

abbrev Str := List Char

/-- `isspace` in the C locale, as used by the formatted extractions. -/
def isSpace (c : Char) : Bool := c = ' ' || c = '\t' || c = '\n' || c = '\x0b' || c = '\x0c' || c = '\r'

/-- The dynamic type of a `Base` in the table: `Typed<T>`, `Typed<bool>`, `Typed<BooleanNegatedProxy>`, which refers to the boolean at the given position of the table, and `Typed<TitleLine>`. -/
inductive Kind (V : Type) where
  | typed (rd : Str → Option (V × ℕ)) (v : V)
  | bool (v : Bool)
  | negated (pos : ℕ)
  | title

/-- `Table::table_` (Pars.h:192-197): the name and the object. -/
abbrev Table (V : Type) := List (Str × Kind V)

variable {V : Type}

/-- `Table::findSubscript` (Pars.cc:19-22). -/
def findSubscript (t : Table V) (s : Str) : Option ℕ := t.findIdx? fun b => decide (b.1 = s)

/-- `Table::add` (Pars.h:152-169), the generic version. `none`: `AttemptedRecreationOfParameterException`. -/
def addKind (t : Table V) (s : Str) (k : Kind V) : Option (Table V) := if (findSubscript t s).isNone then some (t ++ [(s, k)]) else none

/-- `Table::add` of a typed parameter. -/
def add (t : Table V) (s : Str) (rd : Str → Option (V × ℕ)) (v : V) : Option (Table V) := addKind t s (.typed rd v)

def noPrefix : Str := ['n', 'o', '_']

/-- `Table::add` of a boolean (Pars.cc:80-85). The second component tells whether an exception is thrown. -/
def addBool (t : Table V) (s : Str) (v : Bool) : Table V × Bool := match addKind t s (.bool v) with
  | none => (t, true)
  | some t' => match addKind t' (noPrefix ++ s) (.negated t.length) with
    | none => (t', true)
    | some t'' => (t'', false)

/-- `Table::addTitle` (Pars.cc:116-122). -/
def addTitle (t : Table V) (s mod : Str) : Option (Table V) := addKind t (s ++ mod) .title

inductive ReadRes (V : Type) where
  | ok (t : Table V) (line : Str)
  | fail
  | unrecognised

/-- `BooleanNegatedProxy::operator=(true)` (BooleanNegatedProxy.h:25): assigns to the boolean referred to. -/
def assignFalse : Kind V → Kind V
  | .bool _ => .bool false
  | k => k

/-- `Base::read` of the parameter at position `i` (Pars.h:63,85, Pars.cc:65-76, 109-113; BooleanNegatedProxy.h:25). -/
def read (t : Table V) (i : ℕ) (line : Str) : ReadRes V := match t[i]? with
  | none => .unrecognised
  | some (n, .typed rd _) =>
    let s := line.dropWhile isSpace
    if s = [] then .fail else match rd s with
    | none => .fail
    | some (v, k) => .ok (t.set i (n, .typed rd v)) (s.drop k)
  | some (n, .bool _) => .ok (t.set i (n, .bool true)) line
  | some (_, .negated p) => .ok (t.modify p fun b => (b.1, assignFalse b.2)) line
  | some (_, .title) => .unrecognised

inductive Res (V : Type) where
  | ok (t : Table V)
  | abort
  | exit

def helpWord : Str := ['h', 'e', 'l', 'p']
def versionWord : Str := ['v', 'e', 'r', 's', 'i', 'o', 'n']

theorem read_length {t t' : Table V} {i : ℕ} {line line' : Str} (h : read t i line = .ok t' line') : line'.length ≤ line.length := by
  unfold read at h
  split at h
  · simp at h
  · dsimp only at h
    split_ifs at h
    split at h
    · simp at h
    · simp only [ReadRes.ok.injEq] at h
      rw [← h.2, List.length_drop]
      have := (List.dropWhile_sublist isSpace (l := line)).length_le
      omega
  · simp only [ReadRes.ok.injEq] at h; exact h.2 ▸ Nat.le_refl _
  · simp only [ReadRes.ok.injEq] at h; exact h.2 ▸ Nat.le_refl _
  · simp at h

theorem word_length {line : Str} (h : line.dropWhile isSpace ≠ []) : ((line.dropWhile isSpace).dropWhile fun c => !isSpace c).length < line.length := by
  have h1 := (List.dropWhile_sublist isSpace (l := line)).length_le
  obtain ⟨c, s, hs⟩ := List.exists_cons_of_ne_nil h
  have hc : isSpace c = false := by
    have := List.head_dropWhile_not isSpace h
    simpa [hs] using this
  rw [hs] at h1 ⊢
  rw [List.dropWhile_cons, if_pos (by simp [hc])]
  have := (List.dropWhile_sublist (fun c => !isSpace c) (l := s)).length_le
  simp only [List.length_cons] at h1
  omega

/-- The loop of `update` (Pars.cc:138-163). -/
def loop (pre : Str) (t : Table V) (line : Str) : Res V :=
  let s := line.dropWhile isSpace
  if hs : s = [] then .ok t else
  let temp := s.takeWhile fun c => !isSpace c
  let rest := s.dropWhile fun c => !isSpace c
  if temp.take pre.length ≠ pre then .abort else
  let temp := temp.drop pre.length
  if temp = helpWord then .exit
  else if temp = versionWord then .exit
  else match findSubscript t temp with
    | none => .abort
    | some i => match h : read t i rest with
      | .fail => .abort
      | .unrecognised => .abort
      | .ok t' line' => loop pre t' line'
termination_by line.length
decreasing_by exact Nat.lt_of_le_of_lt (read_length h) (word_length hs)

/-- The stream made of the command line (Pars.cc:131-132). -/
def lineOf (argv : List Str) : Str := argv.flatMap fun w => ' ' :: w

/-- `update` (Pars.cc:125-164); `argv` without the name of the program. -/
def update (t : Table V) (pre : Str) (argv : List Str) : Res V := loop pre t (lineOf argv)

end CppQED.Pars
