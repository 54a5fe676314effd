import Verif.Model.Tridiagonal
import Mathlib.Logic.Function.Basic

/-!
# Collections of expectation values

Sources: `/repo/cpypyqed/tools/utils.py` and `/repo/cpypyqed/tools/expvalues.py`. They are written for Python 2 (`UserDict`, `iteritems`), whose semantics is that of the model.
-/

namespace CppQED.ExpValues
open CppQED.Tridiag

/-! ## OrderedDict -/

/-- The members of `OrderedDict` (utils.py:4-6): `_keys`, and `_data` as a partial function. -/
structure OrderedDict (κ ν : Type) where
  keys : List κ
  data : κ → Option ν

variable {κ ν : Type} [DecidableEq κ]

/-- `__init__` (utils.py:4-6). -/
def OrderedDict.init : OrderedDict κ ν := ⟨[], fun _ => none⟩

/-- `__setitem__` (utils.py:8-11). -/
def OrderedDict.set (d : OrderedDict κ ν) (k : κ) (v : ν) : OrderedDict κ ν :=
  ⟨if (d.data k).isNone then d.keys ++ [k] else d.keys, Function.update d.data k (some v)⟩

/-- `__getitem__` (utils.py:13-14), with the KeyError. -/
def OrderedDict.get (d : OrderedDict κ ν) (k : κ) : Outcome ν :=
  match d.data k with
  | none => .throw
  | some v => .ok v

/-- `__delitem__` (utils.py:16-18): the KeyError of the first line leaves the second one out. `remove` removes the first occurrence, and raises a ValueError if there is none. -/
def OrderedDict.del (d : OrderedDict κ ν) (k : κ) : Outcome (OrderedDict κ ν) :=
  match d.data k with
  | none => .throw
  | some _ => if k ∈ d.keys then .ok ⟨d.keys.erase k, Function.update d.data k none⟩ else .throw

/-- `copy` (utils.py:23-27): the name `odict` is not defined anywhere, so that there is always a NameError. -/
def OrderedDict.copy (_ : OrderedDict κ ν) : Outcome (OrderedDict κ ν) := .throw

/-- `iteritems` of `DictMixin`: the keys, each with `self[key]`. -/
def OrderedDict.itemsLoop (d : OrderedDict κ ν) : List κ → Outcome (List (κ × ν))
  | [] => .ok []
  | k :: l => (d.get k).bind fun v => (itemsLoop d l).bind fun r => .ok ((k, v) :: r)

/-- `items()` of `DictMixin`. -/
def OrderedDict.items (d : OrderedDict κ ν) : Outcome (List (κ × ν)) := d.itemsLoop d.keys

/-! ## Trajectories and collections of expectation values -/

/-- Titles. -/
abbrev Str := List Char

/-- `ExpectationValueTrajectory` (expvalues.py:40-54), and other one-dimensional arrays, which have neither attribute. -/
structure Traj (α τ : Type) where
  values : List α
  time : Option τ
  title : Option Str

variable {α τ : Type}

/-- `ExpectationValueTrajectory.__new__` (expvalues.py:40-50). -/
def Traj.new (data : Traj α τ) (time : Option τ) (title : Option Str) : Traj α τ :=
  ⟨data.values, match time with
    | some t => some t
    | none => data.time, match title with
    | some t => some t
    | none => data.title⟩

/-- The members of `ExpectationValueCollection` without its subsystems. -/
structure Coll (α τ : Type) where
  rows : List (List α)
  time : Option τ
  trajs : List (Traj α τ)

/-- The property `titles` (expvalues.py:125-139). -/
def Coll.titles (c : Coll α τ) : List Str := c.trajs.map fun t => match t.title with
  | none => ['?']
  | some s => s

/-- What `ExpectationValueCollection` can be made from: a trajectory, or a sequence of one-dimensional arrays which may itself have the attribute `time`. -/
inductive Source (α τ : Type) where
  | single (t : Traj α τ)
  | rows (l : List (Traj α τ)) (time : Option τ)

/-- The list of the titles filled up with `None` (expvalues.py:101-105); a negative multiple of a list is empty. -/
def padTitles (titles : Option (List (Option Str))) (n : ℕ) : List (Option Str) :=
  match titles with
  | none => List.replicate n none
  | some ts => ts ++ List.replicate (n - ts.length) none

/-- The loop over the rows (expvalues.py:107-108), with the padded list of the titles. -/
def trajLoop (time : Option τ) : List (Traj α τ) → List (Option Str) → List (Traj α τ)
  | col :: l, title :: titles => Traj.new col time title :: trajLoop time l titles
  | _, _ => []

/-- `ExpectationValueCollection.__new__` (expvalues.py:95-113) before the subsystems. Simplified: the rows have the same length. -/
def Coll.new (data : Source α τ) (time : Option τ) (titles : Option (List (Option Str))) : Coll α τ :=
  match data with
  | .single t => ⟨[t.values], match time with
    | some t => some t
    | none => t.time, [t]⟩
  | .rows l t =>
    ⟨l.map (·.values), match time with
      | some t => some t
      | none => t, trajLoop time l (padTitles titles l.length)⟩

/-- `x[a:b:]` for non-negative bounds. -/
def slice {β : Type} (a b : ℕ) (l : List β) : List β := (l.take b).drop a

/-- The rows of a collection as a source of another one: they have the attribute `time` (`__array_finalize__`, expvalues.py:122-123), and no title. -/
def Coll.source (rows : List (List α)) (time : Option τ) : Source α τ := .rows (rows.map fun r => ⟨r, time, none⟩) time

/-- The collection belonging to a subsystem (expvalues.py:117-119). -/
def Coll.sub (c : Coll α τ) (a b : ℕ) : Coll α τ := .new (Coll.source (slice a b c.rows) c.time) c.time (some ((slice a b c.titles).map some))

/-- The loop over the subsystems (expvalues.py:114-119). -/
def Coll.subsystems (c : Coll α τ) (l : List (Str × ℕ × ℕ)) : OrderedDict Str (Coll α τ) := l.foldl (fun d e => d.set e.1 (c.sub e.2.1 e.2.2)) .init

/-- `ExpectationValueCollection(c)` for a collection. -/
def Coll.copy (c : Coll α τ) : Coll α τ := .new (Coll.source c.rows c.time) none none

end CppQED.ExpValues
