import Verif.Model.StateFile
import Mathlib.Data.Nat.Digits.Lemmas
import Mathlib.Tactic.SplitIfs

/-! # Properties C38 (framing of the state file) and C61 (truncated state files) -/

namespace CppQED.StateFile

variable {ρ : Type*}

/-! ## Lemmas -/

theorem decimal_digits (n : ℕ) : ∀ b ∈ decimal n, isDigit b = true := by
  intro b hb
  unfold decimal at hb
  split_ifs at hb with h
  · rw [List.mem_singleton.1 hb]; rfl
  · obtain ⟨d, hd, rfl⟩ := List.mem_map.1 hb
    have := Nat.digits_lt_base (by norm_num : 1 < 10) (List.mem_reverse.1 hd)
    simp only [isDigit, decide_eq_true_eq]; omega

theorem decimal_ne_nil (n : ℕ) : decimal n ≠ [] := by
  unfold decimal
  split_ifs with h
  · simp
  · simpa using Nat.digits_ne_nil_iff_ne_zero.2 h

theorem valueOf_decimal (n : ℕ) : valueOf (decimal n) = n := by
  unfold decimal
  split_ifs with h
  · rw [h]; rfl
  · unfold valueOf
    rw [List.foldl_map, List.foldl_reverse]
    conv_rhs => rw [← Nat.ofDigits_digits 10 n]
    rw [Nat.ofDigits_eq_foldr]
    congr 1
    funext x y
    simp; omega

theorem digit_not_space {b : Byte} (h : isDigit b = true) : isSpace b = false := by
  simp only [isDigit, decide_eq_true_eq] at h
  simp only [isSpace, decide_eq_false_iff_not]; omega

theorem takeWhile_append_all {p : Byte → Bool} {l l' : List Byte} (h : ∀ b ∈ l, p b = true) :
    (l ++ l').takeWhile p = l ++ l'.takeWhile p := by
  induction l with
  | nil => rfl
  | cons x l ih =>
    rw [List.cons_append, List.takeWhile_cons, if_pos (h x (by simp)), ih fun b hb => h b (by simp [hb])]; rfl

theorem dropWhile_append_all {p : Byte → Bool} {l l' : List Byte} (h : ∀ b ∈ l, p b = true) : (l ++ l').dropWhile p = l'.dropWhile p := by
  induction l with
  | nil => rfl
  | cons x l ih =>
    rw [List.cons_append, List.dropWhile_cons, if_pos (h x (by simp)), ih fun b hb => h b (by simp [hb])]

/-- Reading a buffer after a nonempty sequence of digits followed by a nondigit or the end of file. -/
theorem readBuffer_digits (ds rest : List Byte) (hne : ds ≠ []) (hd : ∀ b ∈ ds, isDigit b = true) (hr : ∀ b, rest.head? = some b → isDigit b = false) :
    readBuffer (ds ++ rest) = some (rest.take (valueOf ds) ++ List.replicate (valueOf ds - rest.length) 0, rest.drop (valueOf ds)) := by
  have h1 : (ds ++ rest).dropWhile isSpace = ds ++ rest := by
    obtain ⟨x, ds', rfl⟩ := List.exists_cons_of_ne_nil hne
    rw [List.cons_append, List.dropWhile_cons, if_neg]
    rw [digit_not_space (hd x (by simp))]; simp
  have h2 : rest.takeWhile isDigit = [] := by
    cases rest with
    | nil => rfl
    | cons b r => rw [List.takeWhile_cons, if_neg]; simp [hr b rfl]
  have h3 : rest.dropWhile isDigit = rest := by
    cases rest with
    | nil => rfl
    | cons b r => rw [List.dropWhile_cons, if_neg]; simp [hr b rfl]
  unfold readBuffer
  simp only [h1, takeWhile_append_all hd, dropWhile_append_all hd, h2, h3, List.append_nil, if_neg hne]

/-- White space (blank, tabulators, line ends) before the size of a record is skipped. -/
theorem readBuffer_space (sp bs : List Byte) (h : ∀ b ∈ sp, b ∈ [9, 10, 11, 12, 13, 32]) : readBuffer (sp ++ bs) = readBuffer bs := by
  have : (sp ++ bs).dropWhile isSpace = bs.dropWhile isSpace := dropWhile_append_all fun b hb => by
    have := h b hb
    simp only [List.mem_cons, List.not_mem_nil, or_false] at this
    simp only [isSpace, decide_eq_true_eq]
    omega
  unfold readBuffer
  simp only [this]

/-- An archive begins with a byte that is not a digit. (A Boost binary archive begins with the byte 22.) -/
def NotDigitFirst (p : List Byte) : Prop := ∃ b l, p = b :: l ∧ isDigit b = false

theorem readBuffer_frame (p rest : List Byte) (hp : NotDigitFirst p) : readBuffer (frame p ++ rest) = some (p, rest) := by
  obtain ⟨b, l, rfl, hb⟩ := hp
  unfold frame
  rw [List.append_assoc, readBuffer_digits _ _ (decimal_ne_nil _) (decimal_digits _) (by
    intro x hx; simp at hx; rw [← hx]; exact hb), valueOf_decimal]
  simp

theorem readLoop_fuel (decode : List Byte → Option ρ) (fuel fuel' : ℕ) (bs : List Byte) (h : bs.length ≤ fuel) (h' : bs.length ≤ fuel') :
    readLoop decode fuel bs = readLoop decode fuel' bs := by
  induction fuel generalizing fuel' bs with
  | zero =>
    have : bs = [] := List.length_eq_zero_iff.1 (by omega)
    rw [this]; simp [readLoop]
  | succ n ih =>
    cases bs with
    | nil => simp [readLoop]
    | cons x bs =>
      cases fuel' with
      | zero => simp at h'
      | succ n' =>
        unfold readLoop
        cases hb : readBuffer (x :: bs) with
        | none => rfl
        | some p =>
          obtain ⟨buffer, rest⟩ := p
          have hlen : rest.length ≤ bs.length := by
            unfold readBuffer at hb
            by_cases hds : ((x :: bs).dropWhile isSpace).takeWhile isDigit = []
            · simp [hds] at hb
            · simp only [if_neg hds, Option.some.injEq, Prod.mk.injEq] at hb
              rw [← hb.2]
              have h1 : (((x :: bs).dropWhile isSpace).takeWhile isDigit).length + (((x :: bs).dropWhile isSpace).dropWhile isDigit).length =
                  ((x :: bs).dropWhile isSpace).length := by
                rw [← List.length_append, List.takeWhile_append_dropWhile]
              have h2 : ((x :: bs).dropWhile isSpace).length ≤ (x :: bs).length := (List.dropWhile_suffix isSpace).length_le
              have h3 : 0 < (((x :: bs).dropWhile isSpace).takeWhile isDigit).length := List.length_pos_iff.2 hds
              rw [List.length_drop]
              simp only [List.length_cons] at h2
              omega
          simp only [List.length_cons] at h h'
          simp only []
          rw [ih n' rest (by omega) (by omega)]

theorem readFile_cons (decode : List Byte → Option ρ) (p rest : List Byte) (hp : NotDigitFirst p) :
    readFile decode (frame p ++ rest) = (decode p).bind fun r => (readFile decode rest).map (r :: ·) := by
  unfold readFile
  have hlen : (frame p ++ rest).length = (frame p ++ rest).length - 1 + 1 := by
    have : 0 < (frame p).length := by
      unfold frame; rw [List.length_append]
      have := List.length_pos_iff.2 (decimal_ne_nil p.length); omega
    rw [List.length_append]; omega
  obtain ⟨x, l, hx⟩ : ∃ x l, frame p ++ rest = x :: l := by
    cases h : frame p ++ rest with
    | nil => rw [h] at hlen; simp at hlen
    | cons x l => exact ⟨x, l, rfl⟩
  have hb := readBuffer_frame p rest hp
  rw [hlen]
  have : readLoop decode ((frame p ++ rest).length - 1 + 1) (frame p ++ rest) =
      match readBuffer (frame p ++ rest) with
      | none => none
      | some (buffer, rest') =>
        match decode buffer with
        | none => none
        | some r => (readLoop decode ((frame p ++ rest).length - 1) rest').map (r :: ·) := by
    rw [hx]; rfl
  rw [this, hb]
  simp only []
  cases decode p with
  | none => rfl
  | some r =>
    simp only [Option.bind_some]
    rw [readLoop_fuel decode _ rest.length rest _ le_rfl]
    have h0 : 0 < (frame p).length := by
      unfold frame; rw [List.length_append]
      have := List.length_pos_iff.2 (decimal_ne_nil p.length); omega
    rw [List.length_append]; omega

/-! ## C38 -/

/-- The state file after writing the given records one after the other, possibly in several runs (the file is opened for appending). -/
def writeFile (encode : ρ → List Byte) (rs : List ρ) : List Byte := rs.flatMap fun r => frame (encode r)

/-- **C38.** Appending records in a second run is the same as writing all of them in one. -/
theorem write_append (encode : ρ → List Byte) (rs rs' : List ρ) : writeFile encode (rs ++ rs') = writeFile encode rs ++ writeFile encode rs' :=
  List.flatMap_append

/-- Reading on after complete records. -/
theorem readFile_after (encode : ρ → List Byte) (decode : List Byte → Option ρ) (hd : ∀ r, decode (encode r) = some r)
    (he : ∀ r, NotDigitFirst (encode r)) (rs : List ρ) (rest : List Byte) :
    readFile decode (writeFile encode rs ++ rest) = (readFile decode rest).map (rs ++ ·) := by
  induction rs with
  | nil => simp [writeFile]
  | cons r rs ih =>
    have : writeFile encode (r :: rs) ++ rest = frame (encode r) ++ (writeFile encode rs ++ rest) := by simp [writeFile]
    rw [this, readFile_cons decode _ _ (he r), hd, Option.bind_some, ih, Option.map_map]
    rfl

/-- **C38.** Reading the state file returns exactly the sequence of records written, whatever their number, sizes and contents. -/
theorem readFile_writeFile (encode : ρ → List Byte) (decode : List Byte → Option ρ) (hd : ∀ r, decode (encode r) = some r)
    (he : ∀ r, NotDigitFirst (encode r)) (rs : List ρ) : readFile decode (writeFile encode rs) = some rs := by
  have := readFile_after encode decode hd he rs []
  rw [List.append_nil] at this
  rw [this]
  simp [readFile, readLoop]

/-- **C38.** A record is loaded as a state of the trajectory if and only if the rank, the type and the trajectory identifiers agree; metadata with the
special identifier select the loading of a bare array, anything else is an exception. -/
theorem readState_spec (own sm : Metadata) (h : own.trajectoryID ≠ "ArrayOnly") :
    (readState own sm = .stateIO ↔ sm.rank = own.rank ∧ sm.typeID = own.typeID ∧ sm.trajectoryID = own.trajectoryID) ∧
    (readState own sm = .arrayOnly ↔ sm.trajectoryID = "ArrayOnly") := by
  unfold readState Metadata.eq
  by_cases h1 : sm.trajectoryID = "ArrayOnly"
  · rw [if_pos h1]
    refine ⟨⟨fun hh => absurd hh (by simp), fun hh => ?_⟩, by simp [h1]⟩
    exact absurd (hh.2.2.symm.trans h1) h
  · rw [if_neg h1]
    by_cases h2 : sm.rank = own.rank ∧ sm.typeID = own.typeID ∧ sm.trajectoryID = own.trajectoryID
    · have : (sm.rank == own.rank && sm.typeID == own.typeID && sm.trajectoryID == own.trajectoryID) = true := by simp [h2]
      rw [this]; simp [h2, h]
    · have : (sm.rank == own.rank && sm.typeID == own.typeID && sm.trajectoryID == own.trajectoryID) = false := by
        rw [← Bool.not_eq_true]; simpa [and_assoc] using h2
      rw [this]
      simp only [Bool.not_false, if_true]
      exact ⟨⟨fun hh => absurd hh (by simp), fun hh => absurd hh h2⟩, ⟨fun hh => absurd hh (by simp), fun hh => absurd hh h1⟩⟩

/-- A small archive format: the signature byte, the length, and the data. -/
def toyEncode (r : List Byte) : List Byte := 22 :: r.length :: r
/-- Loading does not look at what comes after the data. -/
def toyDecode : List Byte → Option (List Byte)
  | 22 :: n :: r => if n ≤ r.length then some (r.take n) else none
  | _ => none

theorem toy_roundtrip (r : List Byte) : toyDecode (toyEncode r) = some r := by simp [toyEncode, toyDecode]

example : readFile toyDecode (writeFile toyEncode [[49, 50, 51], [], [32, 48, 22, 55]]) = some [[49, 50, 51], [], [32, 48, 22, 55]] :=
  readFile_writeFile _ _ toy_roundtrip (fun r => ⟨22, _, rfl, rfl⟩) _

/-! ## C61 -/

/-- What is in the buffer when the last record is truncated after `j` bytes: if in the middle of the size, then as many zeros as the truncated
number; if in the archive, then the missing bytes are zeros. -/
def truncatedBuffer (p : List Byte) (j : ℕ) : List Byte :=
  if j ≤ (decimal p.length).length then List.replicate (valueOf ((decimal p.length).take j)) 0
  else p.take (j - (decimal p.length).length) ++ List.replicate (p.length - (j - (decimal p.length).length)) 0

/-- **C61.** Reading a file truncated at any point: the complete records are read as they have been written. The truncated one is read if and only if the
archive accepts the buffer completed with zeros. -/
theorem readFile_truncated (encode : ρ → List Byte) (decode : List Byte → Option ρ) (hd : ∀ r, decode (encode r) = some r)
    (he : ∀ r, NotDigitFirst (encode r)) (rs : List ρ) (r : ρ) (j : ℕ) (h0 : 0 < j) (hj : j < (frame (encode r)).length) :
    readFile decode (writeFile encode rs ++ (frame (encode r)).take j) =
      (decode (truncatedBuffer (encode r) j)).map fun r' => rs ++ [r'] := by
  rw [readFile_after encode decode hd he]
  obtain ⟨b, l, hp, hb⟩ := he r
  generalize encode r = p at *
  have hdpos := List.length_pos_iff.2 (decimal_ne_nil p.length)
  have hlen : (frame p).length = (decimal p.length).length + p.length := by simp [frame]
  have hbuf : readBuffer ((frame p).take j) = some (truncatedBuffer p j, []) := by
    unfold frame truncatedBuffer
    by_cases hjd : j ≤ (decimal p.length).length
    · rw [if_pos hjd, List.take_append_of_le_length hjd]
      have := readBuffer_digits ((decimal p.length).take j) [] (by
        intro h; have := congrArg List.length h; rw [List.length_take, List.length_nil] at this; omega)
        (fun x hx => decimal_digits _ x (List.mem_of_mem_take hx)) (by simp)
      rw [List.append_nil] at this
      rw [this]; simp
    · rw [if_neg hjd, List.take_append, List.take_of_length_le (by omega)]
      rw [readBuffer_digits _ _ (decimal_ne_nil _) (decimal_digits _) (by
        intro x hx
        rw [hp] at hx
        obtain ⟨k, hk⟩ : ∃ k, j - (decimal (b :: l).length).length = k + 1 :=
          ⟨j - (decimal (b :: l).length).length - 1, by rw [hp] at hjd; omega⟩
        rw [hk] at hx
        simp at hx; rw [← hx]; exact hb), valueOf_decimal]
      have hk : j - (decimal p.length).length ≤ p.length := by omega
      have h1 : (p.take (j - (decimal p.length).length)).length = j - (decimal p.length).length := by
        rw [List.length_take]; omega
      rw [List.take_take, min_eq_right hk, h1, List.drop_of_length_le (by rw [h1]; exact hk)]
  have hne : (frame p).take j ≠ [] := by
    intro h; have := congrArg List.length h; rw [List.length_take, List.length_nil] at this; omega
  obtain ⟨x, t, hxt⟩ := List.exists_cons_of_ne_nil hne
  rw [hxt] at hbuf ⊢
  unfold readFile
  rw [List.length_cons, readLoop, hbuf]
  · simp only []
    cases decode (truncatedBuffer p j) with
    | none => rfl
    | some r' => cases t <;> simp [readLoop]
  · simp

/-- **C61**, the part that holds: truncation at the boundary of records results in exactly the records before it, and the records before the truncated one
are always intact; a truncation is rejected with an exception if the archive rejects the completed buffer. -/
theorem truncated_rejected_partial (encode : ρ → List Byte) (decode : List Byte → Option ρ) (hd : ∀ r, decode (encode r) = some r)
    (he : ∀ r, NotDigitFirst (encode r)) (rs : List ρ) (r : ρ) (j : ℕ) (h0 : 0 < j) (hj : j < (frame (encode r)).length)
    (hrej : decode (truncatedBuffer (encode r) j) = none) :
    readFile decode (writeFile encode rs ++ (frame (encode r)).take j) = none := by
  rw [readFile_truncated encode decode hd he rs r j h0 hj, hrej]; rfl

/-- **C61**, the violated part: there is a format (a signature, a length, and the data) for which a file truncated in the middle of the data is read without
any error, the missing data being replaced by zeros. -/
theorem truncated_accepted : ∃ (rs : List (List Byte)) (bs : List Byte), bs <+: writeFile toyEncode rs ∧ bs.length < (writeFile toyEncode rs).length ∧
    readFile toyDecode bs = some [[7, 8], [5, 0, 0]] ∧ rs = [[7, 8], [5, 6, 7]] := by
  refine ⟨[[7, 8], [5, 6, 7]], [52, 22, 2, 7, 8, 53, 22, 3, 5], ?_, ?_, ?_, rfl⟩
  · have : writeFile toyEncode [[7, 8], [5, 6, 7]] = [52, 22, 2, 7, 8, 53, 22, 3, 5, 6, 7] := by
      simp [writeFile, frame, toyEncode, decimal]
    rw [this]; exact ⟨[6, 7], rfl⟩
  · simp [writeFile, frame, toyEncode, decimal]
  · decide

end CppQED.StateFile
