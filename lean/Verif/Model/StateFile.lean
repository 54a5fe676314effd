import Mathlib.Data.Nat.Digits.Defs

/-!
# Model of the state file

Source: `/repo/CPPQEDutils/Trajectory.h` (`readViaSStream`, `writeViaSStream`, `ReadState`, `WriteState`, `SerializationMetadata`).

The file is a list of bytes (natural numbers). Compression is in `StateFileOpen.lean`. A Boost archive is represented by
a function `encode` and a function `decode` which is `none` if the constructor of the archive or the loading throws.
-/

namespace CppQED.StateFile

notation "Byte" => ℕ

/-- ASCII decimal digit. -/
def isDigit (b : Byte) : Bool := decide (48 ≤ b ∧ b ≤ 57)

/-- ASCII white space. -/
def isSpace (b : Byte) : Bool := decide ((9 ≤ b ∧ b ≤ 13) ∨ b = 32)

/-- `os << n` for an integer. -/
def decimal (n : ℕ) : List Byte := if n = 0 then [48] else (Nat.digits 10 n).reverse.map (· + 48)

/-- Value of a list of digit characters. -/
def valueOf (ds : List Byte) : ℕ := ds.foldl (fun acc d => 10 * acc + (d - 48)) 0

/-- `writeViaSStream` (Trajectory.h:410-424): the size of the archive, followed immediately by the archive. -/
def frame (payload : List Byte) : List Byte := decimal payload.length ++ payload

/-- The reading of the archive in `readViaSStream` (Trajectory.h:398-404): the size with formatted input (skipping white space), then as many bytes into
a buffer that has been resized to this size, that is, filled with 0; if there are fewer, then the rest remains 0. The result is the buffer and the rest
of the file. `none`: no number to read, in which case the archive is constructed from an empty buffer, which throws. -/
def readBuffer (bs : List Byte) : Option (List Byte × List Byte) :=
  let bs := bs.dropWhile isSpace
  let ds := bs.takeWhile isDigit
  let rest := bs.dropWhile isDigit
  if ds = [] then none
  else
    let n := valueOf ds
    some (rest.take n ++ List.replicate (n - rest.length) 0, rest.drop n)

/-- The loop reading all the records (Trajectory.h:495 and 503). `none`: exception. The fuel is the number of bytes. -/
def readLoop {ρ : Type*} (decode : List Byte → Option ρ) : ℕ → List Byte → Option (List ρ)
  | _, [] => some []
  | 0, _ => none
  | fuel + 1, bs =>
    match readBuffer bs with
    | none => none
    | some (buffer, rest) =>
      match decode buffer with
      | none => none
      | some r => (readLoop decode fuel rest).map (r :: ·)

def readFile {ρ : Type*} (decode : List Byte → Option ρ) (bs : List Byte) : Option (List ρ) := readLoop decode bs.length bs

/-- `SerializationMetadata` (Trajectory.h:135-159). -/
structure Metadata where
  rank : ℤ
  typeID : String
  trajectoryID : String
  protocolVersion : ℤ
  deriving DecidableEq

/-- `SerializationMetadata::operator==` (Trajectory.h:140). -/
def Metadata.eq (a b : Metadata) : Bool := a.rank == b.rank && a.typeID == b.typeID && a.trajectoryID == b.trajectoryID

/-- What `ReadState` does (Trajectory.h:367-380). -/
inductive ReadAction
  | arrayOnly
  | stateIO
  | throw
  deriving DecidableEq

/-- `ReadState` (Trajectory.h:367-380): `sm` is what has been read, `own` that of the trajectory. -/
def readState (own sm : Metadata) : ReadAction :=
  if sm.trajectoryID = "ArrayOnly" then .arrayOnly
  else if !(sm.eq own) then .throw
  else .stateIO

end CppQED.StateFile
