import Verif.Model.ExpValues

/-! # What a dictionary with an order is, and which title belongs to a row -/

namespace CppQED.ExpValues

variable {κ ν : Type} [DecidableEq κ]

/-- What can be done with a dictionary. -/
inductive Op (κ ν : Type) where
  | set (k : κ) (v : ν)
  | del (k : κ)

/-- A list of entries: a new key comes to the end, a known one keeps its place and gets another value; deleting removes the entry. -/
def Op.act (l : List (κ × ν)) : Op κ ν → List (κ × ν)
  | .set k v => if k ∈ l.map Prod.fst then l.map (fun e => if e.1 = k then (k, v) else e) else l ++ [(k, v)]
  | .del k => l.filter (fun e => e.1 ≠ k)

/-- The entries after a history. -/
def entries (h : List (Op κ ν)) : List (κ × ν) := h.foldl Op.act []

/-- The dictionary after a history, in which the errors of deletions are caught. -/
def OrderedDict.after (h : List (Op κ ν)) : OrderedDict κ ν := h.foldl (fun d o => match o with
  | .set k v => d.set k v
  | .del k => match d.del k with
    | .ok d' => d'
    | _ => d) .init

variable {α τ : Type}

/-- The title that belongs to the row `n`: the given one, otherwise that of the row itself, otherwise a question mark. -/
def titleOf (l : List (Traj α τ)) (titles : Option (List (Option Str))) (n : ℕ) : Str :=
  (((titles.getD [])[n]?.join).orElse fun _ => l[n]?.bind fun t => t.title).getD "?".toList

end CppQED.ExpValues
