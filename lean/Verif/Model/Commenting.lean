import Mathlib.Data.List.Basic
import Mathlib.Logic.Function.Basic

/-!
# Model of the commenting stream

Source: `/repo/CPPQEDutils/CommentingStream.h`: the finite-state filter of Boost.Iostreams and the `CommentingMachine`. The sink (the output file) accepts every character (`iostreams::put` returns true), so the buffer of
the machine is empty after each character; the buffering of the chain of filters is modelled by the list of chunks in which the characters of a write arrive at the filter. A write is flushed before another writer
of the same file writes (`endl` does so).
-/

namespace CppQED.Commenting

abbrev Str := List Char

/-- `initial_state`, `withinLine` (CommentingStream.h:391-392). -/
inductive State where
  | lineBegin
  | withinLine
deriving DecidableEq

/-- The character classes of the rows: `is<'\n'>`, `is_any_except_EOL` (CommentingStream.h:98-105, 398-401). -/
inductive Class where
  | eol
  | anyExceptEOL

def Class.test : Class → Char → Bool
  | .eol, c => c == '\n'
  | .anyExceptEOL, c => c != '\n'

/-- `row` (CommentingStream.h:125-137); the action is the characters it pushes. -/
structure Row where
  state : State
  cls : Class
  next : State
  action : Char → Str

def commentChar : Char := '#'

/-- `pushFirstCharInLine` (CommentingStream.h:396). -/
def pushFirstCharInLine (c : Char) : Str := [commentChar, ' ', c]

/-- `push`. -/
def push (c : Char) : Str := [c]

/-- `transition_table` (CommentingStream.h:403-408). -/
def transitionTable : List Row :=
  [⟨.lineBegin, .eol, .lineBegin, push⟩,
   ⟨.lineBegin, .anyExceptEOL, .withinLine, pushFirstCharInLine⟩,
   ⟨.withinLine, .anyExceptEOL, .withinLine, push⟩,
   ⟨.withinLine, .eol, .lineBegin, push⟩]

/-- `process_event_impl::execute` (CommentingStream.h:240-267): the first matching row; `on_any` does nothing. -/
def processEvent (rows : List Row) (buf : Str) (s : State) (c : Char) : State × Str := match rows with
  | [] => (s, buf)
  | r :: rows => if r.state = s && r.cls.test c then (r.next, buf ++ r.action c) else processEvent rows buf s c

/-- `finite_state_filter::put` (CommentingStream.h:333-344): the state after the character and the characters reaching the sink. -/
def put (s : State) (c : Char) : State × Str := processEvent transitionTable [] s c

/-- A chunk passing the filter. -/
def putChunk (st : State × Str) (chunk : Str) : State × Str := chunk.foldl (fun st c => let r := put st.1 c; (r.1, st.2 ++ r.2)) st

/-- A write into a commenting stream, arriving in chunks, or a write of data into the file itself (Trajectory.h:523-605: there are two commenting streams on the same file, the log stream and the one of the header). -/
inductive Write where
  | comment (stream : ℕ) (chunks : List Str)
  | data (text : Str)

/-- The states of the commenting streams and the content of the file. -/
structure File where
  states : ℕ → State
  content : Str

/-- Freshly made commenting streams. -/
def File.empty : File := ⟨fun _ => .lineBegin, []⟩

def File.write (f : File) : Write → File
  | .comment k chunks =>
    let r := chunks.foldl putChunk (f.states k, [])
    ⟨Function.update f.states k r.1, f.content ++ r.2⟩
  | .data text => ⟨f.states, f.content ++ text⟩

end CppQED.Commenting
