import Verif.Lemmas.StateFileOpen
import Verif.Props.Trajectory

/-! # Properties C166 (state files with and without compression), C167 (mixed use of the two builds) and C168 (crash with buffered states) -/

namespace CppQED.StateFile

open CppQED.Tridiag (Outcome)

variable {ρ : Type*} {c : Codec}

theorem writeFile_records (encode : ρ → List Byte) (rs : List ρ) : Records (writeFile encode rs) := by
  cases rs with
  | nil => exact Or.inl rfl
  | cons r rs =>
    obtain ⟨b, l, hl⟩ := List.exists_cons_of_ne_nil (decimal_ne_nil (encode r).length)
    have hb := decimal_digits (encode r).length b (by rw [hl]; exact List.mem_cons_self)
    simp only [isDigit, decide_eq_true_eq] at hb
    exact Or.inr ⟨b, l ++ encode r ++ writeFile encode rs, by simp [writeFile, frame, hl], hb.1, hb.2⟩

theorem writeFile_flatMap (encode : ρ → List Byte) (rss : List (List ρ)) : rss.flatMap (writeFile encode) = writeFile encode rss.flatten := by
  induction rss with
  | nil => rfl
  | cons rs rss ih => rw [List.flatMap_cons, ih, List.flatten_cons, write_append]

/-! ## C167 -/

/-- **C167.** What is violated of it and what remains: after any sequence of uses by builds with and without compression, reading with compression returns
all that has been written, in order, if and only if the file has not been begun with compression and then written without; reading without
compression does so if and only if the file has not been begun with compression. In the former case of failure, the stream goes bad while reading. -/
theorem builds_read_partial (hc : Bzip2 c) (us : List Use) (hne : us ≠ []) (hr : ∀ u ∈ us, Records u.bytes) :
    (openReading c true (history c none us) = .ok (us.flatMap Use.bytes) ↔ ¬ Mixed us) ∧
    (openReading c false (history c none us) = .ok (us.flatMap Use.bytes) ↔ ¬ BegunCompressed us) ∧
    (Mixed us → openReading c true (history c none us) = .undef) := by
  rw [history_none us hne]
  rcases first_busy us with hidle | ⟨A, u, B, rfl, hA, hu⟩
  · rw [history_idle us hidle, flatMap_idle us hidle]
    have hm : ¬ BegunCompressed us := by
      rintro ⟨A, u, B, rfl, _, hu⟩
      exact absurd (hidle u (by simp)).1 (by simp [hu])
    have hm' : ¬ Mixed us := fun ⟨A, u, B, h, hA, hu, _⟩ => hm ⟨A, u, B, h, hA, hu⟩
    have h0 : c.decompress [] = some [] := by simpa using hc.concat []
    refine ⟨iff_of_true ?_ hm', iff_of_true rfl hm, fun h => absurd h hm'⟩
    simp [openReading, isbz2, h0]
  · have huniq : ∀ {A' B' : List Use} {u' : Use}, A ++ u :: B = A' ++ u' :: B' → (∀ v ∈ A', v.compression = false ∧ v.bytes = []) →
        u'.compression = true → u = u' ∧ B = B' := fun h hA' hu' =>
      (first_busy_unique h hA hu hA' (fun hi => by rw [hi.1] at hu'; cases hu')).2
    rw [history_append, history_idle A hA, history_cons, List.flatMap_append, flatMap_idle A hA, List.nil_append, List.flatMap_cons]
    cases hcu : u.compression with
    | true =>
      have hs : session c true false (some []) u.bytes = [u.bytes].flatMap c.compress := by simp [session, isbz2]
      rw [hs]
      have hbegun : BegunCompressed (A ++ u :: B) := ⟨A, u, B, rfl, hA, hcu⟩
      have hplain : ¬ openReading c false (history c (some ([u.bytes].flatMap c.compress)) B) = .ok (u.bytes ++ B.flatMap Use.bytes) := by
        obtain ⟨x, hx⟩ := history_extends (c := c) B ([u.bytes].flatMap c.compress)
        obtain ⟨rest, hrest⟩ := hc.magic u.bytes
        rw [hx]
        simp only [openReading, Bool.false_and, Bool.false_eq_true, if_false, Outcome.ok.injEq, List.flatMap_cons, List.flatMap_nil, hrest]
        intro h
        have hrec : Records (u.bytes ++ B.flatMap Use.bytes) := by
          have hall : ∀ (l : List Use), (∀ v ∈ l, Records v.bytes) → Records (l.flatMap Use.bytes) := by
            intro l
            induction l with
            | nil => exact fun _ => Or.inl rfl
            | cons v l ih =>
              intro hl
              rcases hl v List.mem_cons_self with h0 | ⟨b, r, h1, h2⟩
              · rw [List.flatMap_cons, h0, List.nil_append]
                exact ih fun w hw => hl w (List.mem_cons_of_mem _ hw)
              · exact Or.inr ⟨b, r ++ l.flatMap Use.bytes, by rw [List.flatMap_cons, h1]; rfl, h2⟩
          have := hall (u :: B) fun v hv => hr v (by simp only [List.mem_append]; exact Or.inr hv)
          simpa using this
        rw [← h] at hrec
        rcases hrec with h0 | ⟨b, r, h1, h2⟩
        · simp at h0
        · simp only [List.cons_append, List.cons.injEq] at h1
          omega
      by_cases hB : ∃ v ∈ B, v.compression = false ∧ v.bytes ≠ []
      · obtain ⟨ss', b, rest, h1, h2, h3⟩ := history_junk hc B (fun v hv => hr v (by simp [hv])) hB [u.bytes] (by simp)
        have hmixed : Mixed (A ++ u :: B) := ⟨A, u, B, rfl, hA, hcu, hB⟩
        have hbad : openReading c true (history c (some ([u.bytes].flatMap c.compress)) B) = .undef := by
          rw [h3]
          simp [openReading, isbz2_streams hc ss' _ h1, hc.junk ss' b rest h2]
        refine ⟨iff_of_false (by rw [hbad]; simp) (not_not_intro hmixed), iff_of_false hplain (not_not_intro hbegun), fun _ => hbad⟩
      · have hB' : ∀ v ∈ B, v.compression = false → v.bytes = [] := fun v hv hvc => by
          by_contra hne
          exact hB ⟨v, hv, hvc, hne⟩
        obtain ⟨ss', h1, h2, h3⟩ := history_streams hc B hB' [u.bytes] (by simp)
        have hm : ¬ Mixed (A ++ u :: B) := by
          rintro ⟨A', u', B', h, hA', hu', hv⟩
          obtain ⟨_, rfl⟩ := huniq h hA' hu'
          exact hB hv
        have hz : isbz2 (some (ss'.flatMap c.compress)) = true := by simpa using isbz2_streams hc ss' [] h1
        refine ⟨iff_of_true ?_ hm, iff_of_false hplain (not_not_intro hbegun), fun h => absurd h hm⟩
        rw [h2]
        simp only [openReading, hz, Bool.true_and, if_true, hc.concat, h3]
        simp
    | false =>
      have hub : u.bytes ≠ [] := fun h => hu ⟨hcu, h⟩
      obtain ⟨b, rest, hb, hd, hd'⟩ := (hr u (by simp)).resolve_left hub
      have hs : session c false false (some []) u.bytes = b :: rest := by simp [session, hb]
      have hm : ¬ BegunCompressed (A ++ u :: B) := by
        rintro ⟨A', u', B', h, hA', hu'⟩
        obtain ⟨rfl, _⟩ := huniq h hA' hu'
        rw [hcu] at hu'; cases hu'
      have hm' : ¬ Mixed (A ++ u :: B) := fun ⟨A', u', B', h, hA', hu', _⟩ => hm ⟨A', u', B', h, hA', hu'⟩
      rw [hs, history_plain (by omega : b ≠ 66), hb]
      refine ⟨iff_of_true ?_ hm', iff_of_true ?_ hm, fun h => absurd h hm'⟩
      · simp [openReading, isbz2_plain (by omega : b ≠ 66)]
      · simp [openReading]

/-! ## C166 -/

/-- **C166.** Whatever the number of runs appending to the state file, and whatever the number and contents of the states saved by each, reading the file with the
same build of the library, with or without compression, gives all the states in the order of writing. -/
theorem sessions_read (hc : Bzip2 c) (encode : ρ → List Byte) (decode : List Byte → Option ρ) (hd : ∀ r, decode (encode r) = some r)
    (he : ∀ r, NotDigitFirst (encode r)) (compression : Bool) (rss : List (List ρ)) (hne : rss ≠ []) :
    readStates c decode compression (history c none (rss.map fun rs => ⟨compression, writeFile encode rs⟩)) = .ok rss.flatten := by
  have hus : (rss.map fun rs => (⟨compression, writeFile encode rs⟩ : Use)) ≠ [] := by simpa using hne
  have hrec : ∀ u ∈ (rss.map fun rs => (⟨compression, writeFile encode rs⟩ : Use)), Records u.bytes := by
    intro u hu
    obtain ⟨rs, _, rfl⟩ := List.mem_map.1 hu
    exact writeFile_records encode rs
  obtain ⟨h1, h2, _⟩ := builds_read_partial hc _ hus hrec
  have hcompr : ∀ u ∈ (rss.map fun rs => (⟨compression, writeFile encode rs⟩ : Use)), u.compression = compression := by
    intro u hu
    obtain ⟨rs, _, rfl⟩ := List.mem_map.1 hu
    rfl
  have hb : (rss.map fun rs => (⟨compression, writeFile encode rs⟩ : Use)).flatMap Use.bytes = writeFile encode rss.flatten := by
    rw [List.flatMap_map]; exact writeFile_flatMap encode rss
  have hopen : openReading c compression (history c none (rss.map fun rs => ⟨compression, writeFile encode rs⟩)) = .ok (writeFile encode rss.flatten) := by
    cases compression with
    | true =>
      rw [← hb]
      refine h1.2 ?_
      rintro ⟨A, u, B, h, _, _, v, hv, hvf, _⟩
      have := hcompr v (by rw [h]; simp [hv])
      rw [hvf] at this; cases this
    | false =>
      rw [← hb]
      refine h2.2 ?_
      rintro ⟨A, u, B, h, _, hu⟩
      have := hcompr u (by rw [h]; simp)
      rw [hu] at this; cases this
  rw [readStates, hopen]
  simp only [readFile_writeFile encode decode hd he]

/-- **C166.** A file begun without compression can be continued and read by any build: it is never taken for a compressed one. -/
theorem plain_continues (encode : ρ → List Byte) (decode : List Byte → Option ρ) (hd : ∀ r, decode (encode r) = some r)
    (he : ∀ r, NotDigitFirst (encode r)) (rs : List ρ) (hrs : rs ≠ []) (uses : List (Bool × List ρ)) (compression : Bool) :
    readStates c decode compression (history c (some (writeFile encode rs)) (uses.map fun u => ⟨u.1, writeFile encode u.2⟩)) =
      .ok (rs ++ uses.flatMap Prod.snd) := by
  obtain ⟨b, rest, hb, h48, h57⟩ := (writeFile_records encode rs).resolve_left (by
    obtain ⟨r, rs, rfl⟩ := List.exists_cons_of_ne_nil hrs
    obtain ⟨b, l, hl⟩ := List.exists_cons_of_ne_nil (decimal_ne_nil (encode r).length)
    simp [writeFile, frame, hl])
  have hu : (uses.map fun u => (⟨u.1, writeFile encode u.2⟩ : Use)).flatMap Use.bytes = writeFile encode (uses.flatMap Prod.snd) := by
    rw [List.flatMap_map, List.flatMap_def (f := Prod.snd), ← writeFile_flatMap, List.flatMap_map]
  have hopen : openReading c compression (history c (some (writeFile encode rs)) (uses.map fun u => ⟨u.1, writeFile encode u.2⟩)) =
      .ok (writeFile encode (rs ++ uses.flatMap Prod.snd)) := by
    rw [hb, history_plain (by omega : b ≠ 66), hu, ← hb, write_append]
    rw [hb, List.cons_append]
    simp [openReading, isbz2_plain (by omega : b ≠ 66)]
  rw [readStates, hopen]
  simp only [readFile_writeFile encode decode hd he]

/-- **C166.** Opening a state file that does not exist is an exception. -/
theorem missing_throws (decode : List Byte → Option ρ) (compression : Bool) : readStates c decode compression none = .throw := rfl

/-- **C166.** Errors are not hidden: if an archive in the file is rejected, whatever has been written before by any number of runs and whatever follows it,
reading is an exception. -/
theorem rejected_throws (hc : Bzip2 c) (encode : ρ → List Byte) (decode : List Byte → Option ρ) (hd : ∀ r, decode (encode r) = some r)
    (he : ∀ r, NotDigitFirst (encode r)) (compression : Bool) (rss : List (List ρ)) (p rest : List Byte) (hp : NotDigitFirst p) (hbad : decode p = none) :
    readStates c decode compression (history c none ((rss.map fun rs => ⟨compression, writeFile encode rs⟩) ++ [⟨compression, frame p ++ rest⟩])) = .throw := by
  set us : List Use := (rss.map fun rs => ⟨compression, writeFile encode rs⟩) ++ [⟨compression, frame p ++ rest⟩] with hus
  have hrec : ∀ u ∈ us, Records u.bytes := by
    intro u hu
    rcases List.mem_append.1 hu with hu | hu
    · obtain ⟨rs, _, rfl⟩ := List.mem_map.1 hu
      exact writeFile_records encode rs
    · rw [List.mem_singleton.1 hu]
      obtain ⟨b, l, hl⟩ := List.exists_cons_of_ne_nil (decimal_ne_nil p.length)
      have hb := decimal_digits p.length b (by rw [hl]; exact List.mem_cons_self)
      simp only [isDigit, decide_eq_true_eq] at hb
      exact Or.inr ⟨b, l ++ p ++ rest, by simp [frame, hl], hb.1, hb.2⟩
  have hcompr : ∀ u ∈ us, u.compression = compression := by
    intro u hu
    rcases List.mem_append.1 hu with hu | hu
    · obtain ⟨rs, _, rfl⟩ := List.mem_map.1 hu
      rfl
    · rw [List.mem_singleton.1 hu]
  obtain ⟨h1, h2, _⟩ := builds_read_partial hc us (by simp [hus]) hrec
  have hb : us.flatMap Use.bytes = writeFile encode rss.flatten ++ (frame p ++ rest) := by
    rw [hus, List.flatMap_append, List.flatMap_map, ← writeFile_flatMap encode rss]; simp
  have hopen : openReading c compression (history c none us) = .ok (writeFile encode rss.flatten ++ (frame p ++ rest)) := by
    rw [← hb]
    cases compression with
    | true =>
      refine h1.2 ?_
      rintro ⟨A, u, B, h, _, _, v, hv, hvf, _⟩
      have := hcompr v (by rw [h]; simp [hv])
      rw [hvf] at this; cases this
    | false =>
      refine h2.2 ?_
      rintro ⟨A, u, B, h, _, hu⟩
      have := hcompr u (by rw [h]; simp)
      rw [hu] at this; cases this
  rw [readStates, hopen]
  simp only [readFile_after encode decode hd he, readFile_cons decode p rest hp, hbad, Option.bind_none, Option.map_none]

/-- **C166.** Writing from Python replaces the file: what is read is the state written, whatever was in the file, and whatever build had written it. -/
theorem overwrite_read (hc : Bzip2 c) (encode : ρ → List Byte) (decode : List Byte → Option ρ) (hd : ∀ r, decode (encode r) = some r)
    (he : ∀ r, NotDigitFirst (encode r)) (compression : Bool) (file : Option (List Byte)) (r : ρ) :
    readStates c decode compression (some (session c compression true file (writeFile encode [r]))) = .ok [r] := by
  have := sessions_read hc encode decode hd he compression [[r]] (by simp)
  simpa [history, session] using this

/-! ### A codec with the assumed properties -/

/-- A stream: the signature, the number of bytes, and the bytes. -/
def toyCompress (bs : List Byte) : List Byte := 66 :: 90 :: 104 :: bs.length :: bs

def toyLoop : ℕ → List Byte → Option (List Byte)
  | _, [] => some []
  | 0, _ => none
  | fuel + 1, 66 :: 90 :: 104 :: n :: bs => if n ≤ bs.length then (toyLoop fuel (bs.drop n)).map (bs.take n ++ ·) else none
  | _, _ => none

def toyCodec : Codec := ⟨toyCompress, fun bs => toyLoop bs.length bs⟩

theorem toyLoop_streams (ss : List (List Byte)) (fuel : ℕ) (rest : List Byte) :
    toyLoop (ss.length + fuel) (ss.flatMap toyCompress ++ rest) = (toyLoop fuel rest).map (ss.flatten ++ ·) := by
  induction ss with
  | nil => simp
  | cons s ss ih =>
    have : (s :: ss).flatMap toyCompress ++ rest = 66 :: 90 :: 104 :: s.length :: (s ++ (ss.flatMap toyCompress ++ rest)) := by
      simp [toyCompress]
    rw [this, show (s :: ss).length + fuel = (ss.length + fuel) + 1 by simp; omega, toyLoop]
    rw [if_pos (by simp), List.drop_left, List.take_left, ih, Option.map_map]
    congr 1
    funext x
    simp

theorem toyLength (ss : List (List Byte)) : ss.length ≤ (ss.flatMap toyCompress).length := by
  induction ss with
  | nil => simp
  | cons s ss ih => rw [List.flatMap_cons, List.length_append]; simp only [List.length_cons, toyCompress]; omega

theorem toy_bzip2 : Bzip2 toyCodec where
  magic := fun bs => ⟨_, rfl⟩
  concat := fun bss => by
    show toyLoop (bss.flatMap toyCompress).length (bss.flatMap toyCompress) = _
    have h := toyLoop_streams bss ((bss.flatMap toyCompress).length - bss.length) []
    rw [List.append_nil, Nat.add_sub_cancel' (toyLength bss)] at h
    rw [h, toyLoop]; simp
  junk := fun bss b rest hb => by
    show toyLoop (bss.flatMap toyCompress ++ b :: rest).length (bss.flatMap toyCompress ++ b :: rest) = none
    have hl := toyLength bss
    have h := toyLoop_streams bss ((bss.flatMap toyCompress ++ b :: rest).length - bss.length) (b :: rest)
    rw [Nat.add_sub_cancel' (by rw [List.length_append]; omega)] at h
    rw [h]
    have : toyLoop ((bss.flatMap toyCompress ++ b :: rest).length - bss.length) (b :: rest) = none := by
      generalize (bss.flatMap toyCompress ++ b :: rest).length - bss.length = k
      cases k with
      | zero => rfl
      | succ k =>
        rw [toyLoop]
        all_goals intros
        all_goals first
          | exact absurd (List.cons.inj ‹b :: rest = _ :: _›).1 hb
          | simp_all
    rw [this]; rfl

/-- Three runs, the second of which saves nothing. -/
example : readStates toyCodec toyDecode true
    (history toyCodec none ([[[1, 2], [3]], [], [[4, 5, 6]]].map fun rs => ⟨true, writeFile toyEncode rs⟩)) = .ok [[1, 2], [3], [4, 5, 6]] :=
  sessions_read toy_bzip2 _ _ toy_roundtrip (fun r => ⟨22, _, rfl, rfl⟩) true _ (by simp)

/-- An archive of the wrong length after those of two runs. -/
example : readStates toyCodec toyDecode true
    (history toyCodec none (([[[1, 2], [3]], []].map fun rs => ⟨true, writeFile toyEncode rs⟩) ++ [⟨true, frame [22, 5, 1] ++ []⟩])) = .throw :=
  rejected_throws toy_bzip2 _ _ toy_roundtrip (fun r => ⟨22, _, rfl, rfl⟩) true _ _ _ ⟨22, _, rfl, rfl⟩ rfl

/-- A run with compression continued by a build without: the file cannot be read any more. -/
theorem mixed_lost : openReading toyCodec true (history toyCodec none [⟨true, writeFile toyEncode [[1, 2]]⟩, ⟨false, writeFile toyEncode [[3]]⟩]) = .undef :=
  (builds_read_partial toy_bzip2 _ (by simp) (by
    intro u hu
    simp only [List.mem_cons, List.not_mem_nil, or_false] at hu
    rcases hu with rfl | rfl <;> exact writeFile_records _ _)).2.2
    ⟨[], _, _, rfl, by simp, rfl, _, List.mem_singleton.2 rfl, rfl, by simp [writeFile, frame, toyEncode, decimal]⟩

end CppQED.StateFile

namespace CppQED.Traj

open CppQED.Spec

variable {σ ρ : Type*}

/-! ## C168 -/

/-- The files after a crash when the states written are only partly on the disk (they are buffered by the stream and the compressor): `E` are the effects up to the
crash, of the states only `P` have reached the disk. -/
def filesBuffered (I : Iface σ ρ) (E : List (Ev σ)) (P : List σ) : Files ρ := ⟨wroteTrajectory E, some (P.map I.save), none⟩

/-- **C168.** The restarted process goes on from the last state that has reached the disk, number `b`; the rows in the file are then those of a run without a crash
if and only if the number of rows at the crash was `b+1`: otherwise there are rows repeated (more) or missing (less). -/
theorem crash_buffered_partial (I : Iface σ ρ) (hI : Progress I) (hS : FullySerialised I) (c : Cfg) (hfile : c.streamToFile = true) (Dt : ℝ) (hD : 0 < Dt)
    (s s₀ : σ) (hs : 0 ≤ I.time s) (E : List (Ev σ)) (hw : wroteTrajectory E = true) (P : List σ) (b : ℕ)
    (hb : P.getLast? = some ((I.advance Dt)^[b] s)) (a : ℕ) (ha : rows E = (List.range a).map (fun k => (I.advance Dt)^[k] s))
    (n' : ℕ) (hn' : 0 < n') (fuel : ℕ) (hf : n' + 1 ≤ fuel) :
    ∃ r, run I neverStop () { c with mode := .nDt n' Dt } (filesBuffered I E P) fuel s₀ = some (some r) ∧
      rows r.evs = (List.range n').map (fun k => (I.advance Dt)^[b + 1 + k] s) ∧ r.final = (I.advance Dt)^[b + n'] s ∧
      (rows E ++ rows r.evs = (List.range (b + n' + 1)).map (fun k => (I.advance Dt)^[k] s) ↔ a = b + 1) := by
  have hfiles : filesBuffered I E P = filesAfter I (.header :: P.map .save) := by
    have : saves (.header :: P.map (Ev.save (σ := σ))) = P := by
      show (P.map Ev.save).filterMap _ = P
      rw [List.filterMap_map]
      exact List.filterMap_some
    unfold filesBuffered filesAfter
    rw [this, hw]
    rfl
  have hsv : saves (.header :: P.map (Ev.save (σ := σ))) = P := by
    show (P.map Ev.save).filterMap _ = P
    rw [List.filterMap_map]
    exact List.filterMap_some
  obtain ⟨r, hr, h1, h2⟩ := crash_resume I hI hS c hfile Dt hD s s₀ hs (.header :: P.map .save) rfl b (by rw [hsv]; exact hb) n' hn' fuel hf
  refine ⟨r, by rw [hfiles]; exact hr, h1, h2, ?_, ?_⟩
  · intro h
    have := congrArg List.length h
    rw [h1, ha] at this
    simp only [List.length_append, List.length_map, List.length_range] at this
    omega
  · rintro rfl
    rw [ha, h1, show b + n' + 1 = (b + 1) + n' by omega, List.range_add (m := n'), List.map_append, List.map_map]
    rfl

/-- **C168**, the violated part: if no state has reached the disk, then the restarted process does not stop with an error: it goes on from its initial
condition, as if continuing, and repeats all the rows but the first. -/
theorem crash_restarts (I : Iface σ ρ) (hI : Progress I) (c : Cfg) (hfile : c.streamToFile = true) (Dt : ℝ) (hD : 0 < Dt)
    (s₀ : σ) (hs : 0 ≤ I.time s₀) (E : List (Ev σ)) (hw : wroteTrajectory E = true) (n' : ℕ) (hn' : 0 < n') (fuel : ℕ) (hf : n' + 1 ≤ fuel) :
    ∃ r, run I neverStop () { c with mode := .nDt n' Dt } (filesBuffered I E []) fuel s₀ = some (some r) ∧
      rows r.evs = (List.range n').map (fun k => (I.advance Dt)^[k + 1] s₀) := by
  obtain ⟨r, hr, h1, _⟩ := run_nDt I hI { c with mode := .nDt n' Dt } n' Dt rfl hn' hD true s₀ hs fuel hf
  refine ⟨r, ?_, ?_⟩
  · unfold run startup filesBuffered
    rw [if_pos ⟨hfile, hw⟩]
    show some (runFrom I neverStop () _ true fuel s₀) = _
    rw [hr]
  · rw [h1, if_pos rfl, List.range_succ_eq_map]
    simp [Function.comp_def]

/-- **C168.** This is what is found after the crash of a first run with compression of which nothing has reached the state file: the file exists, is empty, and
reading it gives no state and no error. -/
theorem crash_unflushed {τ : Type*} (c : StateFile.Codec) (hc : StateFile.Bzip2 c) (decode : List ℕ → Option τ) (compression : Bool) :
    StateFile.readStates c decode compression (some []) = .ok [] := by
  have h0 : c.decompress [] = some [] := by simpa using hc.concat []
  cases compression <;> simp [StateFile.readStates, StateFile.openReading, StateFile.isbz2, StateFile.readFile, StateFile.readLoop, h0]

/-- The run over the states 0, 2, 4, killed after its last row with no state on the disk, and restarted: the file has the rows 0, 2, 4, 2, 4. -/
example : ∃ (E : List (Ev ℝ)) (r : Res ℝ), rows E = [0, 2, 4] ∧ saves E = [0, 2, 4] ∧
    run clock neverStop () ⟨.nDt 2 2, 1, true, true, true⟩ (filesBuffered clock E []) 3 (0 : ℝ) = some (some r) ∧ rows E ++ rows r.evs = [0, 2, 4, 2, 4] := by
  obtain ⟨r, hr, h1⟩ := crash_restarts clock clock_progress ⟨.nDt 2 2, 1, true, true, true⟩ rfl 2 two_pos 0 le_rfl
    [.header, .save 0, .row 0 true, .save 2, .row 2 true, .save 4, .row 4 true] rfl 2 two_pos 3 le_rfl
  refine ⟨_, r, rfl, rfl, hr, ?_⟩
  rw [h1]
  have : (List.range 2).map (fun k => (clock.advance 2)^[k + 1] (0 : ℝ)) = [0 + 2, 0 + 2 + 2] := rfl
  rw [this]
  show [(0 : ℝ), 2, 4] ++ [0 + 2, 0 + 2 + 2] = _
  norm_num

end CppQED.Traj
