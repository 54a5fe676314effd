import Verif.Model.StateFile
import Verif.Model.Tridiagonal

/-!
# Model of the opening of state files

Source: `/repo/CPPQEDutils/Trajectory.cc` (`isbz2`, `openStateFileReading`, `openStateFileWriting`). The library is built with or without support of
compression (`DO_NOT_USE_BOOST_COMPRESSION`); this is the argument `compression`. The bzip2 filters of Boost.Iostreams are represented by a pair of
functions on lists of bytes (`Codec`), the properties they are assumed to have are in `Verif/Spec/StateFileOpen.lean`. A file is `none` if it does not
exist. Failures of opening for other reasons (permissions, full disk) are not modelled.
-/

namespace CppQED.StateFile

open CppQED.Tridiag (Outcome)

/-- `bzip2_compressor` and `bzip2_decompressor`; `none`: the data are not a sequence of bzip2 streams. -/
structure Codec where
  compress : List Byte → List Byte
  decompress : List Byte → Option (List Byte)

/-- `isbz2` (Trajectory.cc:18-27): for a file that cannot be opened or is empty, `peek` gives the end of the file; the header is a string of three
zero characters, overwritten by the first bytes of the file, as many as there are. -/
def isbz2 (file : Option (List Byte)) : Bool :=
  match file with
  | none => true
  | some [] => true
  | some bs => bs.take 3 ++ List.replicate (3 - bs.length) 0 == [66, 90, 104]

/-- `openStateFileReading` (Trajectory.cc:40-55): what the stream delivers. `throw`: the file does not exist. `undef`: the decompressor throws in the
midst of reading: the stream only becomes bad, not at its end, and the loops reading it go on with an uninitialised size. -/
def openReading (c : Codec) (compression : Bool) (file : Option (List Byte)) : Outcome (List Byte) :=
  match file with
  | none => .throw
  | some bs =>
    if compression && isbz2 (some bs) then
      match c.decompress bs with
      | some bs => .ok bs
      | none => .undef
    else .ok bs

/-- `openStateFileWriting` (Trajectory.cc:57-72), the writing of `bytes` in the stream, and its destruction: the file afterwards. The file is opened before
it is tested, hence it exists then, and is empty with the mode `trunc`; the default mode is appending. -/
def session (c : Codec) (compression trunc : Bool) (file : Option (List Byte)) (bytes : List Byte) : List Byte :=
  let opened := if trunc then [] else file.getD []
  opened ++ (if compression && isbz2 (some opened) then c.compress bytes else bytes)

/-- The opening of a state file and the loop reading all its records (Trajectory.h:494-495, 502-503; io.cc:77-92 for Python). -/
def readStates {ρ : Type*} (c : Codec) (decode : List Byte → Option ρ) (compression : Bool) (file : Option (List Byte)) : Outcome (List ρ) :=
  match openReading c compression file with
  | .ok bs =>
    match readFile decode bs with
    | some rs => .ok rs
    | none => .throw
  | .throw => .throw
  | .undef => .undef

end CppQED.StateFile
