import Verif.Model.FormDouble
import Verif.Model.Commenting
import Verif.Model.Tridiagonal

/-!
# Model of the reading of the output of trajectories from Python

Sources: `/repo/cpypyqed/tools/io.py`, and the text of the log of jumps, `/repo/CPPQEDcore/quantumtrajectory/MCWF_TrajectoryLogger.cc`.

Text is `List Char`. Of `numpy.loadtxt`, what is documented is modelled; `float` is the conversion of a word to a number, `none` its exception. White space is blanks, tabulators and ends of lines, the other kinds do not occur in these files. Compressed files are not modelled.
-/

namespace CppQED.PyText
open CppQED.Tridiag CppQED.FormDouble

abbrev Str := List Char

/-- The lines of a file as Python iterates them, with the newline at the end. -/
def fileLines : Str → List Str
  | [] => []
  | c :: s =>
    if c = '\n' then ['\n'] :: fileLines s
    else match fileLines s with
      | [] => [[c]]
      | l :: ls => (c :: l) :: ls

/-- `line.strip(" \n")` is empty. -/
def blank (l : Str) : Bool := l.all fun c => c == ' ' || c == '\n'

/-- `line.startswith("#")`. -/
def startsWithHash : Str → Bool
  | [] => false
  | c :: _ => c == '#'

/-- `evs_header` (io.py:73-101). -/
def evsHeader (s : Str) : Str := ((fileLines s).takeWhile fun l => blank l || startsWithHash l).flatten

/-- `line.split()`. -/
def split (l : Str) : List Str := (l.splitOnP fun c => c == ' ' || c == '\t' || c == '\n').filter (· ≠ [])

/-- The line without the comment. -/
def cut (comment : Option Char) (l : Str) : Str := match comment with
  | none => l
  | some c => l.takeWhile (· != c)

/-- What `loadtxt` returns: an array with two axes, or one, or a number. -/
inductive Loaded (ρ : Type)
  | table (rows : List (List ρ))
  | vector (v : List ρ)
  | scalar (x : ρ)

/-- The conversion of all the words, if there is no exception. -/
def convert {ρ : Type} (float : Str → Option ρ) : List Str → Option (List ρ)
  | [] => some []
  | w :: ws => (float w).bind fun x => (convert float ws).map (x :: ·)

/-- The selection of columns, if they exist. -/
def select (usecols : Option (List ℕ)) (row : List Str) : Option (List Str) := match usecols with
  | none => some row
  | some cols => cols.mapM fun j => row[j]?

/-- The conversion of all the rows. -/
def convertRows {ρ : Type} (float : Str → Option ρ) (usecols : Option (List ℕ)) : List (List Str) → Option (List (List ρ))
  | [] => some []
  | r :: rs => (select usecols r).bind fun r => (convert float r).bind fun x => (convertRows float usecols rs).map (x :: ·)

/-- `numpy.squeeze`: axes of extent one are removed; without data, the array has one axis, of extent zero. -/
def squeeze {ρ : Type} : List (List ρ) → Loaded ρ
  | [] => .vector []
  | [[x]] => .scalar x
  | [r] => .vector r
  | rows => if rows.all (·.length == 1) then .vector rows.flatten else .table rows

/-- `numpy.loadtxt`: comments are removed from the lines, lines without any word are skipped; all the rows must have the same length; axes of extent one are removed. -/
def loadtxt {ρ : Type} (float : Str → Option ρ) (comment : Option Char) (skiprows : ℕ) (usecols : Option (List ℕ)) (s : Str) : Outcome (Loaded ρ) :=
  let words := (((fileLines s).drop skiprows).map fun l => split (cut comment l)).filter (· ≠ [])
  match convertRows float usecols words with
  | none => .throw
  | some rows => if rows.all fun r => r.length == (rows.headD []).length then .ok (squeeze rows) else .throw

/-- What `load_evs` returns: the rows of the array are the quantities. -/
structure Evs (ρ : Type) where
  evs : List (List ρ)
  time : List ρ

/-- `load_evs` (io.py:25-40): `swapaxes(0,1)` is an exception if there is only one axis. The argument `maxevs` is not used. -/
def loadEvs {ρ : Type} (float : Str → Option ρ) (_maxevs : Option ℕ) (s : Str) : Outcome (Evs ρ) :=
  (loadtxt float (some '#') 0 none s).bind fun r => match r with
    | .table rows => .ok ⟨(List.range (rows.headD []).length).map fun j => rows.filterMap (·[j]?), rows.filterMap (·[0]?)⟩
    | _ => .throw

/-- The line that `load_jumps` looks for (io.py:124). -/
def jumpsMarker : Str := "# MCWF Trajectory:".toList

/-- `load_jumps` (io.py:103-127): `none` is `None`. -/
def loadJumps {ρ : Type} (float : Str → Option ρ) (s : Str) : Outcome (Option (Loaded ρ)) :=
  match (fileLines s).findIdx? fun l => decide (jumpsMarker <:+: l) with
  | none => .ok none
  | some i => (loadtxt float none (i + 1) (some [1, 2]) s).bind fun r => .ok (some r)

/-- A number written by `os << n`. -/
def natText (n : ℕ) : Str := digs (Nat.log 10 n + 1) n

/-- The last lines of `Logger::onEnd` (MCWF_TrajectoryLogger.cc:33-36): the jumps with the precision of the stream (Trajectory.h:530). -/
noncomputable def jumpLines (p : ℤ) (traj : List (Double × ℕ)) : List Str :=
  "MCWF Trajectory:".toList :: (traj.map fun j => plain p j.1 ++ '\t' :: natText j.2) ++ [[]]

end CppQED.PyText
