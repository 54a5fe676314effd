import Verif.Model.TinyOfArrays

/-! # What it means that arrays are new and independent (C185) -/

namespace CppQED.TinyArrays

variable {R : Type}

/-- Some later history: arrays are overwritten one after the other. -/
def history (h : Memory R) (ws : List (ℕ × List R)) : Memory R := ws.foldl (fun h w => write h w.1 w.2) h

/-- What it means that `ys` are new arrays, made in the memory `h'` from the memory `h`, with the given contents: they have these contents, and the earlier arrays are unchanged; whatever is written through the new arrays later on, the earlier ones do not change,
and vice versa; and writing one of the new arrays does not change the others. -/
structure Independent (h h' : Memory R) (ys : List ℕ) (contents : List (List R)) : Prop where
  has_contents : ys.map (read h') = contents
  unchanged : ∀ a < h.length, read h' a = read h a
  forward : ∀ ws : List (ℕ × List R), (∀ w ∈ ws, w.1 ∈ ys) → ∀ a < h.length, read (history h' ws) a = read h a
  backward : ∀ ws : List (ℕ × List R), (∀ w ∈ ws, w.1 < h.length) → ys.map (read (history h' ws)) = contents
  separate : ∀ (i j : ℕ) (y z : ℕ), i ≠ j → ys[i]? = some y → ys[j]? = some z → ∀ v, read (write h' y v) y = v ∧ read (write h' y v) z = read h' z

end CppQED.TinyArrays
