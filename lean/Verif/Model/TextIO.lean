import Verif.Model.Pars
import Verif.Model.Mode
import Verif.Model.Particle

/-!
# Model of the text representation of enumerations and containers

Sources: `/repo/CPPQEDcore/quantumtrajectory/EvolutionMethod.cc`, `/repo/CPPQEDelements/utils/ModeFunction.cc:9-35`, `/repo/CPPQEDcore/high/QM_Picture.cc`, `/repo/CPPQEDutils/ContainerIO.h`.
An input stream is the remaining characters and whether it is not in an error state (fail or bad); the eof bit is the emptiness of the remaining characters.
-/

namespace CppQED.TextIO
open CppQED.Pars (Str isSpace)
open CppQED.ModeEl (Picture)
open CppQED.ParticleEl (MFT)

structure IStream where
  chars : Str
  ok : Bool

/-- `is>>s` with a string: skips whitespaces, gets the characters up to the next one; no characters set the fail bit. In error state the string remains empty. -/
def IStream.word (s : IStream) : Str × IStream :=
  if !s.ok then ([], s) else
  let cs := s.chars.dropWhile isSpace
  if cs = [] then ([], ⟨[], false⟩) else (cs.takeWhile fun c => !isSpace c, ⟨cs.dropWhile fun c => !isSpace c, true⟩)

/-- `is.clear(badbit)`. -/
def IStream.bad (s : IStream) : IStream := ⟨s.chars, false⟩

/-- `evolution::Method` (EvolutionMethod.h:17-22). -/
inductive Method where
  | single
  | ensemble
  | master
deriving DecidableEq

/-- `operator<<(std::ostream&, Method)` (EvolutionMethod.cc:7-16). -/
def writeMethod : Method → Str
  | .single => "single".toList
  | .ensemble => "ensemble".toList
  | .master => "master".toList

/-- `operator>>(std::istream&, Method&)` (EvolutionMethod.cc:19-34). -/
def readMethod (is : IStream) (em : Method) : IStream × Method :=
  let (s, is) := is.word
  let (emtemp, is) :=
    if s = "single".toList then (Method.single, is)
    else if s = "ensemble".toList then (Method.ensemble, is)
    else if s ≠ "master".toList then (Method.master, is.bad)
    else (Method.master, is)
  (is, if is.ok then emtemp else em)

/-- `operator<<(ostream&, QM_Picture)` (QM_Picture.cc:14-22). -/
def writePicture : Picture → Str
  | .ip => "IP".toList
  | .uip => "UIP".toList
  | .sch => "Sch".toList

/-- `operator>>(istream&, QM_Picture&)` (QM_Picture.cc:25-38). -/
def readPicture (is : IStream) (qmp : Picture) : IStream × Picture :=
  let (s, is) := is.word
  let (temp, is) :=
    if s = "IP".toList then (Picture.ip, is)
    else if s = "UIP".toList then (Picture.uip, is)
    else if s ≠ "Sch".toList then (Picture.sch, is.bad)
    else (Picture.sch, is)
  (is, if is.ok then temp else qmp)

/-- `operator<<(ostream&, ModeFunctionType)` (ModeFunction.cc:9-18). -/
def writeMF : MFT → Str
  | .sin => "Sin".toList
  | .cos => "Cos".toList
  | .plus => "Plus".toList
  | .minus => "Minus".toList

/-- `operator>>(istream&, ModeFunctionType&)` (ModeFunction.cc:20-35). -/
def readMF (is : IStream) (mf : MFT) : IStream × MFT :=
  let (s, is) := is.word
  let (temp, is) :=
    if s = "Sin".toList then (MFT.sin, is)
    else if s = "Cos".toList then (MFT.cos, is)
    else if s = "Plus".toList then (MFT.plus, is)
    else if s ≠ "Minus".toList then (MFT.minus, is.bad)
    else (MFT.minus, is)
  (is, if is.ok then temp else mf)

/-- `picture::updateWithPicture` (QM_Picture.cc:41-50), after the parsing of the command line: `method` is the value of the parameter `evol` if there is such a parameter. -/
def updateWithPicture (method : Option Method) (qmp : Picture) : Picture := match method with
  | none => qmp
  | some m => if m = .master ∧ qmp = .ip then .uip else qmp

/-! ## Containers -/

/-- `delimiters_values` (ContainerIO.h:80-87). -/
structure Delims where
  pre : Str
  delimiter : Str
  post : Str

/-- The default delimiters, those of sets, and those of pairs and tuples (ContainerIO.h:301-366). -/
def defaultDelims : Delims := ⟨"[".toList, ", ".toList, "]".toList⟩
def setDelims : Delims := ⟨"{".toList, ", ".toList, "}".toList⟩
def tupleDelims : Delims := ⟨"(".toList, ", ".toList, ")".toList⟩

/-- `trim` (ContainerIO.h:46-62): first from the right, then from the left. -/
def trim (s : Str) : Str := ((s.reverse.dropWhile isSpace).reverse).dropWhile isSpace

variable {α : Type}

/-- `io_body` (ContainerIO.h:150-167; the same for pairs and tuples with one type of elements, 187-248) for output. -/
def writeBody (d : Delims) (wr : α → Str) : List α → Str
  | [] => []
  | [a] => wr a
  | a :: b :: l => wr a ++ d.delimiter ++ writeBody d wr (b :: l)

/-- `operator<<` of containers (`container_io_helper::operator()`, ContainerIO.h:172-179). -/
def writeContainer (d : Delims) (wr : α → Str) (l : List α) : Str := d.pre ++ writeBody d wr l ++ d.post

/-- The loop over the characters of the delimiter (ContainerIO.h:140-143): `get` takes out the character even if it is different; in error state it does not take out anything. -/
def expect (s : IStream) : Str → IStream
  | [] => s
  | sc :: d => expect (if s.ok then (match s.chars with
      | [] => ⟨[], false⟩
      | c :: cs => ⟨cs, decide (c = sc)⟩) else s) d

/-- `handleDelimiter` (ContainerIO.h:130-145) for input. -/
def handleDelimiter (s : IStream) (delim : Str) : IStream :=
  expect (if s.ok then ⟨s.chars.dropWhile isSpace, true⟩ else s) (trim delim)

/-- `io_body` (ContainerIO.h:150-167) for input: the elements already in the container get overwritten. `rd` is the extraction of an element into an existing one. -/
def readBody (d : Delims) (rd : IStream → α → IStream × α) (s : IStream) : List α → IStream × List α
  | [] => (s, [])
  | [a] => let (s, a) := rd s a; (s, [a])
  | a :: b :: l =>
    let (s, a) := rd s a
    let (s, l) := readBody d rd (handleDelimiter s d.delimiter) (b :: l)
    (s, a :: l)

/-- `operator>>` of containers (ContainerIO.h:172-179, 263-269). -/
def readContainer (d : Delims) (rd : IStream → α → IStream × α) (s : IStream) (l : List α) : IStream × List α :=
  let (s, l) := readBody d rd (handleDelimiter s d.pre) l
  (handleDelimiter s d.post, l)

end CppQED.TextIO
