import Verif.Model.PyIO
import Verif.Props.StateFile
import Mathlib.Data.Countable.Basic
import Mathlib.Tactic.DeriveCountable
import Mathlib.Logic.Equiv.List

/-!
# State files in Python: C137 and C138
-/

namespace CppQED.PyIO
open CppQED.Tridiag CppQED.StateFile

section Spec

/-- The indices of the elements of an array in row-major order. -/
def rowMajor : List ℕ → List (List ℕ)
  | [] => [[]]
  | n :: ns => (List.range n).flatMap fun i => (rowMajor ns).map (i :: ·)

/-- The strides of an array whose elements are in row-major order in the memory. -/
def cStrides : List ℕ → List ℤ
  | [] => []
  | _ :: ns => (ns.prod : ℤ) :: cStrides ns

end Spec

variable {α : Type}

/-- The archives: whatever has been encoded is decoded; the first byte is not a digit (it belongs to the size of the signature of a Boost archive). -/
structure Archives (encode : List (Token α) → List ℕ) (decode : List ℕ → Option (List (Token α))) : Prop where
  decodes : ∀ r, decode (encode r) = some r
  first : ∀ r, NotDigitFirst (encode r)

theorem collect_ok {β γ : Type*} {f : β → Outcome γ} {g : β → γ} {l : List β} (h : ∀ b ∈ l, f b = .ok (g b)) : collect f l = .ok (l.map g) := by
  induction l with
  | nil => rfl
  | cons b l ih =>
    rw [collect, h b (by simp), ih fun c hc => h c (by simp [hc])]
    rfl

/-- The trajectory, or the members of the ensemble, are MCWF or Master trajectories, or simulations of Blitz++ arrays. -/
def Kind.Arrays : Kind → Prop
  | .simulatedOther _ _ => False
  | .ensemble single => single.Arrays
  | _ => True

theorem Kind.Arrays.typeID : ∀ {k : Kind}, k.Arrays → (k.metadata.typeID = "CArray" ∨ k.metadata.typeID = "DArray") ∧ (k.metadata.typeID == "CArray") = k.cplx
  | .mcwf _, _ => ⟨Or.inl rfl, rfl⟩
  | .master _, _ => ⟨Or.inl rfl, rfl⟩
  | .simulatedC _, _ => ⟨Or.inl rfl, rfl⟩
  | .simulatedD _, _ => ⟨Or.inr rfl, rfl⟩
  | .ensemble s, h => Kind.Arrays.typeID (k := s) h

theorem readBuffer_writeFile {encode : List (Token α) → List ℕ} {decode} (hA : Archives encode decode) (r : List (Token α)) (rs : List (List (Token α))) :
    readBuffer (writeFile encode (r :: rs)) = some (encode r, writeFile encode rs) := readBuffer_frame _ _ (hA.first r)

/-- the reading of archives with metadata, array and time at the beginning -/
theorem pyRead_eq {encode : List (Token α) → List ℕ} {decode} (hA : Archives encode decode) {maxRank : ℕ} {m : Metadata} (hr : 0 < m.rank) (hm : m.rank ≤ maxRank) (ht : m.typeID = "CArray" ∨ m.typeID = "DArray")
    {β : Type*} (first : β → List ℕ × List (α × α)) (time : β → α) (rest : β → List (Token α)) (l : List β) (hl : l ≠ []) (hs : ∀ b ∈ l, ((first b).1.length : ℤ) = m.rank) :
    pyRead maxRank decode (writeFile encode (l.map fun b => .metadata m :: .array (m.typeID == "CArray") (first b).1 (first b).2 :: .real (time b) :: rest b)) = .ok ⟨m, some (l.map first, l.map time)⟩ := by
  obtain ⟨b0, l', rfl⟩ := List.exists_cons_of_ne_nil hl
  unfold pyRead
  rw [List.map_cons, readBuffer_writeFile hA]
  simp only
  rw [hA.decodes]
  simp only
  rw [if_neg (by omega), if_neg (by rcases ht with h | h <;> simp [h]), if_neg (by omega), ← List.map_cons (f := fun b => Token.metadata m :: Token.array (m.typeID == "CArray") (first b).1 (first b).2 :: Token.real (time b) :: rest b),
    readFile_writeFile encode decode hA.decodes hA.first]
  simp only
  have hc : ∀ l : List β, (∀ b ∈ l, ((first b).1.length : ℤ) = m.rank) → collect (readRecord (α := α) (m.typeID == "CArray") m.rank.toNat) (l.map fun b => Token.metadata m :: Token.array (m.typeID == "CArray") (first b).1 (first b).2 :: Token.real (time b) :: rest b) = .ok (l.map fun b => (first b, time b)) := by
    intro l hl
    induction l with
    | nil => rfl
    | cons b l ih =>
      rw [List.map_cons, collect, ih fun c hc => hl c (by simp [hc])]
      have : readRecord (α := α) (m.typeID == "CArray") m.rank.toNat (Token.metadata m :: Token.array (m.typeID == "CArray") (first b).1 (first b).2 :: Token.real (time b) :: rest b) = .ok (first b, time b) := by
        rw [readRecord, if_pos ⟨rfl, by have := hl b (by simp); omega⟩]
      rw [this]; rfl
  rw [hc _ hs]
  show Outcome.ok _ = _
  rw [List.map_map, List.map_map]
  rfl

/-- **C137.** The function `read` returns from the state file of a trajectory (Monte Carlo wave function, Master equation, simulation of a complex or real array) the metadata of the trajectory, and the states and the times of all the records in the file,
in the order they were written, whatever the number and the sizes of these, and in whatever number of runs. -/
theorem read_spec {encode : List (Token α) → List ℕ} {decode} (hA : Archives encode decode) {maxRank : ℕ} {k : Kind} (hk : k.Arrays) (hr : 0 < k.metadata.rank) (hm : k.metadata.rank ≤ maxRank)
    (history : List (Snapshot α)) (hne : history ≠ []) (hs : ∀ s ∈ history, (s.shape.length : ℤ) = k.metadata.rank) :
    pyRead maxRank decode (writeFile encode (history.map fun s => archive k [s])) = .ok ⟨k.metadata, some (history.map fun s => (s.shape, s.data), history.map Snapshot.time)⟩ := by
  have := pyRead_eq hA hr hm hk.typeID.1 (fun s : Snapshot α => (s.shape, s.data)) Snapshot.time (fun s => s.rest.map .other) history hne hs
  rw [← this]
  congr 2
  refine List.map_congr_left fun s _ => ?_
  simp [archive, Snapshot.stateIO, hk.typeID.2]

/-- **C137.** The state files that are not supported are rejected with an exception: those with an array of a too high rank, and those of a simulation of something else than a Blitz++ array. So is an empty file. -/
theorem read_rejects {encode : List (Token α) → List ℕ} {decode} (hA : Archives encode decode) (maxRank : ℕ) (k : Kind) (s : Snapshot α) (rest : List (List (Token α)))
    (h : (maxRank : ℤ) < k.metadata.rank ∨ (k.metadata.typeID ≠ "CArray" ∧ k.metadata.typeID ≠ "DArray")) :
    pyRead maxRank decode (writeFile encode (archive k [s] :: rest)) = .throw ∧ pyRead maxRank decode ([] : List ℕ) = .throw := by
  constructor
  · unfold pyRead
    rw [readBuffer_writeFile hA]
    simp only
    rw [hA.decodes]
    simp only [archive]
    rcases h with h | h
    · rw [if_pos h]
    · by_cases h' : k.metadata.rank > maxRank
      · rw [if_pos h']
      · rw [if_neg h', if_pos h]
  · unfold pyRead readBuffer
    simp

/-- **C138.** But from the state file of an ensemble of trajectories, only the states of the first member are returned: the others are silently ignored. -/
theorem read_ensemble_partial {encode : List (Token α) → List ℕ} {decode} (hA : Archives encode decode) {maxRank : ℕ} {k : Kind} (hk : k.Arrays) (hr : 0 < k.metadata.rank) (hm : k.metadata.rank ≤ maxRank)
    (history : List (Snapshot α × List (Snapshot α))) (hne : history ≠ []) (hs : ∀ s ∈ history, (s.1.shape.length : ℤ) = k.metadata.rank) :
    pyRead maxRank decode (writeFile encode (history.map fun s => archive (.ensemble k) (s.1 :: s.2))) = .ok ⟨(Kind.ensemble k).metadata, some (history.map fun s => (s.1.shape, s.1.data), history.map fun s => s.1.time)⟩ := by
  have hk' : (Kind.ensemble k).Arrays := hk
  have := pyRead_eq hA (m := (Kind.ensemble k).metadata) hr hm hk'.typeID.1 (fun s : Snapshot α × List (Snapshot α) => (s.1.shape, s.1.data)) (fun s => s.1.time)
    (fun s => s.1.rest.map .other ++ s.2.flatMap (Snapshot.stateIO (Kind.ensemble k).cplx)) history hne hs
  rw [← this]
  congr 2
  refine List.map_congr_left fun s _ => ?_
  have h2 := hk'.typeID.2
  simp only [archive, Snapshot.stateIO, h2, List.flatMap_cons, List.cons_append]

/-! ## Writing -/

theorem range_mul (n m : ℕ) : List.range (n * m) = (List.range n).flatMap fun i => (List.range m).map (m * i + ·) := by
  induction n with
  | zero => simp
  | succ n ih =>
    rw [Nat.succ_mul, List.range_add, ih, List.range_succ, List.flatMap_append]
    simp [mul_comm]

theorem offset_rowMajor (shape : List ℕ) : (rowMajor shape).map (offset (cStrides shape)) = (List.range shape.prod).map fun k : ℕ => (k : ℤ) := by
  induction shape with
  | nil => rfl
  | cons n ns ih =>
    rw [rowMajor, List.prod_cons, range_mul, List.map_flatMap, List.map_flatMap]
    refine List.flatMap_congr fun i _ => ?_
    rw [List.map_map, List.map_map]
    have h1 : (offset (cStrides (n :: ns)) ∘ fun x => i :: x) = (fun z : ℤ => (ns.prod : ℤ) * i + z) ∘ offset (cStrides ns) := by
      funext x; rfl
    rw [h1, ← List.map_map, ih, List.map_map]
    refine List.map_congr_left fun k _ => ?_
    simp

/-- what is written is the memory from its beginning -/
theorem numpyToArray_eq (a : NpArray α) (v : ℕ → α × α) (h : ∀ k < a.shape.prod, a.memory k = some (v k)) : numpyToArray a = .ok (a.shape, (List.range a.shape.prod).map v) := by
  unfold numpyToArray
  rw [collect_ok (g := v)]
  · rfl
  · intro k hk
    rw [h k (List.mem_range.1 hk)]

theorem numpyToArray_contiguous (a : NpArray α) (hc : a.strides = cStrides a.shape) (v : List ℕ → α × α) (h : ∀ i ∈ rowMajor a.shape, a.elem i = some (v i)) : numpyToArray a = .ok (a.shape, (rowMajor a.shape).map v) := by
  have hlen : (rowMajor a.shape).length = a.shape.prod := by
    have := congrArg List.length (offset_rowMajor a.shape)
    simpa using this
  have ho : ∀ k (hk : k < a.shape.prod), offset (cStrides a.shape) ((rowMajor a.shape)[k]'(by omega)) = k := by
    intro k hk
    have := congrArg (fun l => l[k]?) (offset_rowMajor a.shape)
    simp only [List.getElem?_map] at this
    rw [List.getElem?_eq_getElem (by omega), List.getElem?_eq_getElem (by simpa using hk)] at this
    simpa using this
  have := numpyToArray_eq a (fun k => v ((rowMajor a.shape).getD k [])) fun k hk => by
    have h1 := h _ (List.getElem_mem (l := rowMajor a.shape) (n := k) (by omega))
    unfold NpArray.elem at h1
    rw [hc, ho k hk] at h1
    rw [h1, List.getD_eq_getElem?_getD, List.getElem?_eq_getElem (by omega)]
    rfl
  rw [this]
  congr 2
  refine List.ext_getElem (by simp [hlen]) fun k h1 h2 => ?_
  simp only [List.getElem_map, List.getElem_range]
  rw [List.getD_eq_getElem?_getD, List.getElem?_eq_getElem (by simpa using h2)]
  rfl

/-- **C138.** What has been written with `write` is read back with `read`, if it was a complex array with its elements in row-major order in the memory. A C++ trajectory of the same rank takes the array from such a file as its state; the time is not taken over. -/
theorem write_partial {encode : List (Token α) → List ℕ} {decode} (hA : Archives encode decode) (maxRank : ℕ) (a : NpArray α) (t : α) (hd : a.dtype = .cdouble) (hr : 0 < a.shape.length) (hm : a.shape.length ≤ maxRank)
    (hc : a.strides = cStrides a.shape) (v : List ℕ → α × α) (hv : ∀ i ∈ rowMajor a.shape, a.elem i = some (v i)) :
    ∃ r, pyWrite maxRank encode a t = .ok (writeFile encode [r]) ∧
      pyRead maxRank decode (writeFile encode [r]) = .ok ⟨⟨a.shape.length, "CArray", "ArrayOnly", 0⟩, some ([(a.shape, (rowMajor a.shape).map v)], [t])⟩ ∧
      ∀ k s, k = .mcwf a.shape.length ∨ k = .simulatedC a.shape.length ∨ (∃ n, a.shape.length = 2 * n ∧ k = .master n) → loadInto k a.shape.length s r = .ok ⟨a.shape, (rowMajor a.shape).map v, s.time, s.rest⟩ := by
  refine ⟨[.metadata ⟨a.shape.length, "CArray", "ArrayOnly", 0⟩, .array true a.shape ((rowMajor a.shape).map v), .real t], ?_, ?_, ?_⟩
  · unfold pyWrite
    simp only [gt_iff_lt, not_lt.2 hm, if_false, hr.ne', hd]
    rw [numpyToArray_contiguous a hc v hv]
    simp [Outcome.bind, writeFile]
  · exact pyRead_eq hA (m := ⟨a.shape.length, "CArray", "ArrayOnly", 0⟩) (by simpa using hr) (by simpa using hm) (Or.inl rfl) (fun _ : Unit => (a.shape, (rowMajor a.shape).map v)) (fun _ => t) (fun _ => []) [()] (by simp) (by simp)
  · intro k s hk
    have hcp : k.cplx = true := by rcases hk with rfl | rfl | ⟨n, -, rfl⟩ <;> rfl
    have hrs : readState k.metadata ⟨a.shape.length, "CArray", "ArrayOnly", 0⟩ = .arrayOnly := if_pos rfl
    unfold loadInto
    simp only [hrs]
    rw [if_pos ⟨hcp.symm, trivial⟩]

/-- **C138.** The strides are ignored: from a square matrix that is stored column by column (like the transpose of a NumPy array), the transpose is written. -/
theorem write_transposed_partial {encode : List (Token α) → List ℕ} (maxRank : ℕ) (hm : 2 ≤ maxRank) (a : NpArray α) (t : α) (hd : a.dtype = .cdouble) (n : ℕ) (hs : a.shape = [n, n]) (hc : a.strides = [1, (n : ℤ)])
    (v : List ℕ → α × α) (hv : ∀ i ∈ rowMajor a.shape, a.elem i = some (v i)) :
    pyWrite maxRank encode a t = .ok (writeFile encode [[.metadata ⟨2, "CArray", "ArrayOnly", 0⟩, .array true [n, n] ((rowMajor [n, n]).map fun i => v i.reverse), .real t]]) := by
  set b : NpArray α := { a with strides := cStrides [n, n] } with hb
  have hnp : numpyToArray a = numpyToArray b := rfl
  have hmem : ∀ i, i ∈ rowMajor [n, n] → ∃ x y, i = [x, y] ∧ x < n ∧ y < n := by
    intro i hi
    simp only [rowMajor, List.mem_flatMap, List.mem_map, List.mem_range] at hi
    obtain ⟨x, hx, _, ⟨y, hy, _, h0, rfl⟩, rfl⟩ := hi
    rw [List.mem_singleton] at h0
    subst h0
    exact ⟨x, y, rfl, hx, hy⟩
  have hin : ∀ x y, x < n → y < n → [x, y] ∈ rowMajor [n, n] := by
    intro x y hx hy
    simp only [rowMajor, List.mem_flatMap, List.mem_map, List.mem_range]
    exact ⟨x, hx, _, ⟨y, hy, [], by simp, rfl⟩, rfl⟩
  have h2 := numpyToArray_contiguous b (by rw [hb]; simp [hs]) (fun i => v i.reverse) (by
    intro i hi
    rw [show b.shape = [n, n] from hs] at hi
    obtain ⟨x, y, rfl, hx, hy⟩ := hmem i hi
    have := hv [y, x] (by rw [hs]; exact hin y x hy hx)
    unfold NpArray.elem at this ⊢
    rw [hc] at this
    rw [← show v [y, x] = v [x, y].reverse from rfl, ← this]
    show a.memory _ = a.memory _
    congr 1
    rw [hb]
    simp [offset, cStrides]
    ring)
  have hbs : b.shape = [n, n] := hs
  unfold pyWrite
  have hl : a.shape.length = 2 := by rw [hs]; rfl
  simp only [hl, gt_iff_lt, not_lt.2 hm, if_false, hd, OfNat.ofNat_ne_zero]
  rw [hnp, h2, hbs]
  simp [Outcome.bind, writeFile]

/-- **C138.** A real array is written with the metadata of a complex one, so that the reading of what has been written has no definite result; arrays of other types, and those without axes, are not written at all, without any error, and the file is empty, its reading an exception. -/
theorem write_types_partial {encode : List (Token α) → List ℕ} {decode} (hA : Archives encode decode) (maxRank : ℕ) (a : NpArray α) (t : α) (hm : a.shape.length ≤ maxRank) :
    (a.dtype = .double → 0 < a.shape.length → (∀ k : ℕ, k < a.shape.prod → (a.memory k).isSome) → ∃ bs, pyWrite maxRank encode a t = .ok bs ∧ pyRead maxRank decode bs = .undef) ∧
    (a.dtype = .other ∨ a.shape.length = 0 → pyWrite maxRank encode a t = .ok [] ∧ pyRead (α := α) maxRank decode [] = .throw) := by
  constructor
  · intro hd hr hv
    have h := numpyToArray_eq a (fun k => if h : k < a.shape.prod then (a.memory k).get (hv k h) else (a.memory 0).getD ((a.memory k).elim (Classical.choice ?_) id)) (fun k hk => by
      rw [dif_pos hk]; simp)
    · refine ⟨writeFile encode [_], by
        unfold pyWrite
        simp only [gt_iff_lt, not_lt.2 hm, if_false, hr.ne', hd]
        rw [h]
        simp only [Outcome.bind, writeFile, List.flatMap_cons, List.flatMap_nil, List.append_nil]
        rfl, ?_⟩
      unfold pyRead
      rw [readBuffer_writeFile hA]
      simp only
      rw [hA.decodes]
      simp only
      rw [if_neg (by push_cast; omega), if_neg (by simp), if_neg (by push_cast; omega), readFile_writeFile encode decode hA.decodes hA.first]
      simp [collect, readRecord, Outcome.bind]
    · exact ⟨(t, t)⟩
  · intro h
    constructor
    · unfold pyWrite
      simp only [gt_iff_lt, not_lt.2 hm, if_false]
      rcases h with h | h
      · by_cases h0 : a.shape.length = 0
        · rw [if_pos h0]
        · rw [if_neg h0, h]
      · rw [if_pos h]
    · unfold pyRead readBuffer
      simp

/-! ## Examples -/

instance : Countable Char := ⟨Char.toNat, fun _ _ h => Char.toNat_inj.1 h⟩
instance : Countable String := Function.Injective.countable (f := String.toList) fun _ _ h => String.toList_inj.1 h
deriving instance Countable for Metadata
deriving instance Countable for Token

/-- There are such archives. -/
theorem archives_exist : ∃ (encode : List (Token ℕ) → List ℕ) (decode : List ℕ → Option (List (Token ℕ))), Archives encode decode := by
  obtain ⟨f, hf⟩ := exists_injective_nat (List (Token ℕ))
  refine ⟨fun r => [22, f r], fun bs => (bs[1]?).map (Function.invFun f), ⟨fun r => ?_, fun r => ⟨22, _, rfl, rfl⟩⟩⟩
  simp [Function.leftInverse_invFun hf r]

/-- Two records of a Master-equation trajectory of one qubit. -/
example {encode : List (Token ℕ) → List ℕ} {decode} (hA : Archives encode decode) :
    pyRead 15 decode (writeFile encode ([⟨[2, 2], [(1, 0), (0, 0), (0, 0), (0, 0)], 0, [5]⟩, ⟨[2, 2], [(2, 0), (0, 3), (0, 4), (7, 0)], 1, [5, 6]⟩].map fun s => archive (.master 1) [s])) =
      .ok ⟨⟨2, "CArray", "Master", 0⟩, some ([([2, 2], [(1, 0), (0, 0), (0, 0), (0, 0)]), ([2, 2], [(2, 0), (0, 3), (0, 4), (7, 0)])], [0, 1])⟩ :=
  read_spec hA (k := .master 1) trivial (by decide) (by decide) _ (by simp) (by decide)

/-- The elements of an array of two rows in the memory, and of its transpose. -/
example : ∃ a b : NpArray ℕ, a.strides = cStrides a.shape ∧ b.strides = [1, ((2 : ℕ) : ℤ)] ∧ (∀ i ∈ rowMajor a.shape, (a.elem i).isSome) ∧ (∀ i ∈ rowMajor b.shape, (b.elem i).isSome) ∧ a.elem [0, 1] = some (11, 0) ∧ b.elem [1, 0] = some (11, 0) :=
  ⟨⟨.cdouble, [2, 2], [2, 1], fun k => if 0 ≤ k ∧ k < 4 then some (10 + k.toNat, 0) else none⟩, ⟨.cdouble, [2, 2], [1, 2], fun k => if 0 ≤ k ∧ k < 4 then some (10 + k.toNat, 0) else none⟩,
    by decide, by decide, by decide, by decide, by decide, by decide⟩

end CppQED.PyIO
