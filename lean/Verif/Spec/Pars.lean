import Verif.Model.Pars

/-! # Specification of command lines -/

namespace CppQED.Spec
open CppQED.Pars

variable {V : Type}

/-- What the program sees of a parameter. -/
inductive Val (V : Type) where
  | typed (v : V)
  | bool (b : Bool)

/-- The value seen under a name. -/
def valueOf (t : Table V) (x : Str) : Option (Val V) := match t.find? fun b => decide (b.1 = x) with
  | some (_, .typed _ v) => some (.typed v)
  | some (_, .bool b) => some (.bool b)
  | _ => none

/-- The tables a program can make: starting from the empty one, with successful registrations of typed parameters, switches and titles. -/
inductive Built : Table V → Prop where
  | nil : Built []
  | add {t t' : Table V} (h : Built t) (s rd v) (e : add t s rd v = some t') : Built t'
  | addBool {t t' : Table V} (h : Built t) (s v) (e : addBool t s v = (t', false)) : Built t'
  | addTitle {t t' : Table V} (h : Built t) (s mod) (e : addTitle t s mod = some t') : Built t'

/-- An item of a correct command line. -/
inductive Setting (V : Type) where
  | on (x : Str)
  | off (x : Str)
  | value (x : Str) (w : Str) (v : V)

/-- The words of the item. -/
def Setting.words (pre : Str) : Setting V → List Str
  | .on x => [pre ++ x]
  | .off x => [pre ++ noPrefix ++ x]
  | .value x w _ => [pre ++ x, w]

/-- The text `w` is read as the value `v`, whatever comes after it as separate word. -/
def Reads (rd : Str → Option (V × ℕ)) (w : Str) (v : V) : Prop := ∀ rest : Str, (rest = [] ∨ ∃ r, rest = ' ' :: r) → rd (w ++ rest) = some (v, w.length)

/-- A name which can be given in the command line. -/
def GoodName (pre x : Str) : Prop := (∀ c ∈ pre ++ x, isSpace c = false) ∧ x ≠ [] ∧ x ≠ ['h', 'e', 'l', 'p'] ∧ x ≠ ['v', 'e', 'r', 's', 'i', 'o', 'n']

/-- The item is correct for the given table. -/
def Setting.Valid (t : Table V) (pre : Str) : Setting V → Prop
  | .on x => GoodName pre x ∧ ∃ b, valueOf t x = some (.bool b)
  | .off x => GoodName pre x ∧ ∃ b, valueOf t x = some (.bool b)
  | .value x w v => GoodName pre x ∧ (∃ rd v₀, (x, Kind.typed rd v₀) ∈ t ∧ Reads rd w v) ∧ (∃ c w', w = c :: w' ∧ isSpace c = false)

/-- The value the item gives to `x`, if any. -/
def Setting.gives (x : Str) : Setting V → Option (Val V)
  | .on y => if y = x then some (.bool true) else none
  | .off y => if y = x then some (.bool false) else none
  | .value y _ v => if y = x then some (.typed v) else none

/-- The last value given to `x`, if any. -/
def lastGiven (ss : List (Setting V)) (x : Str) : Option (Val V) := ss.reverse.findSome? (Setting.gives x)

end CppQED.Spec
