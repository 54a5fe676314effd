import Verif.Model.StateFileOpen

/-! # Vocabulary of the properties C166 to C168 -/

namespace CppQED.StateFile

/-- What the format bzip2 and the filters of Boost are assumed to satisfy: every stream, also that of no data, begins with `BZh`; a sequence of streams
decompresses to the sequence of the data; if streams are followed by something not beginning with `B`, it is an error. -/
structure Bzip2 (c : Codec) : Prop where
  magic : ∀ bs, ∃ rest, c.compress bs = 66 :: 90 :: 104 :: rest
  concat : ∀ bss : List (List Byte), c.decompress (bss.flatMap c.compress) = some bss.flatten
  junk : ∀ (bss : List (List Byte)) (b : Byte) (rest : List Byte), b ≠ 66 → c.decompress (bss.flatMap c.compress ++ b :: rest) = none

/-- A use of the state file: by a build of the library with or without compression, appending the given bytes. -/
structure Use where
  compression : Bool
  bytes : List Byte

/-- The state file after a history of uses. -/
def history (c : Codec) (file : Option (List Byte)) (us : List Use) : Option (List Byte) :=
  us.foldl (fun f u => some (session c u.compression false f u.bytes)) file

/-- The bytes of records: nothing or beginning with a decimal digit. -/
def Records (bs : List Byte) : Prop := bs = [] ∨ ∃ b rest, bs = b :: rest ∧ 48 ≤ b ∧ b ≤ 57

/-- The file has been begun by a build with compression: all the uses before were of builds without, writing nothing. -/
def BegunCompressed (us : List Use) : Prop :=
  ∃ us₁ u us₂, us = us₁ ++ u :: us₂ ∧ (∀ v ∈ us₁, v.compression = false ∧ v.bytes = []) ∧ u.compression = true

/-- … and then a build without compression has written in it. -/
def Mixed (us : List Use) : Prop :=
  ∃ us₁ u us₂, us = us₁ ++ u :: us₂ ∧ (∀ v ∈ us₁, v.compression = false ∧ v.bytes = []) ∧ u.compression = true ∧
    ∃ v ∈ us₂, v.compression = false ∧ v.bytes ≠ []

end CppQED.StateFile
