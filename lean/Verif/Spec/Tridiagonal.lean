import Verif.Model.Tridiagonal

/-! The matrix represented by a `Tridiagonal`, stated independently of `apply`. -/

namespace CppQED.Spec
open CppQED.Tridiag (NIdx Tri Diag)

/-- All multi-indices of an array of the given shape. -/
def natBox : List ℕ → Finset (List ℕ)
  | [] => {[]}
  | n :: ns => (Finset.range n ×ˢ natBox ns).map ⟨fun p => p.1 :: p.2, fun p q h => by
      simp only [List.cons.injEq] at h; exact Prod.ext h.1 h.2⟩

/-- The base-3 digits of `ind`, `r` of them, most significant first: axis by axis, 0 stands for the main, 1 for the lower, 2 for the upper
diagonal. -/
def digits3 : ℕ → ℕ → List ℕ
  | 0, _ => []
  | r + 1, ind => (ind / 3 ^ r) % 3 :: digits3 r ind

/-- Do row `i` and column `j` lie on the diagonal of kind `δ` with offset `k`? -/
def OnDiag (δ k i j : ℕ) : Prop := if δ = 0 then i = j else if δ = 1 then i = j + k else j = i + k

instance (δ k i j : ℕ) : Decidable (OnDiag δ k i j) := by unfold OnDiag; infer_instance

/-- The position of the element `(i,j)` on that diagonal: elements of the lower diagonal are numbered by the column, others by the row. -/
def posOn (δ i j : ℕ) : ℕ := if δ = 1 then j else i

/-- The same for multi-indices. -/
def OnDiags : List ℕ → List ℕ → NIdx → NIdx → Prop
  | δ :: ds, k :: ks, i :: is, j :: js => OnDiag δ k i j ∧ OnDiags ds ks is js
  | [], [], [], [] => True
  | _, _, _, _ => False

instance OnDiags.dec : ∀ (ds ks : List ℕ) (i j : NIdx), Decidable (OnDiags ds ks i j)
  | δ :: ds, k :: ks, i :: is, j :: js => by
      unfold OnDiags
      exact @instDecidableAnd _ _ _ (OnDiags.dec ds ks is js)
  | [], [], [], [] => isTrue trivial
  | [], [], [], _ :: _ => isFalse (by simp [OnDiags])
  | [], [], _ :: _, _ => isFalse (by simp [OnDiags])
  | [], _ :: _, _, _ => isFalse (by simp [OnDiags])
  | _ :: _, [], _, _ => isFalse (by simp [OnDiags])
  | _ :: _, _ :: _, [], _ => isFalse (by simp [OnDiags])
  | _ :: _, _ :: _, _ :: _, [] => isFalse (by simp [OnDiags])

/-- The position multi-index. -/
def posOns : List ℕ → NIdx → NIdx → NIdx
  | δ :: ds, i :: is, j :: js => posOn δ i j :: posOns ds is js
  | _, _, _ => []

/-- The matrix element `(i,j)` of the operator: the sum over all the stored (nonempty) diagonals on which `(i,j)` lies. -/
def entry (T : Tri) (i j : NIdx) : ℂ :=
  ∑ ind ∈ Finset.range (3 ^ T.rank),
    if (T.diagonals ind).size ≠ 0 ∧ OnDiags (digits3 T.rank ind) T.diffs i j then (T.diagonals ind).val (posOns (digits3 T.rank ind) i j) else 0

/-- The shape the diagonal with the given digits has to have: `N` along an axis with the main diagonal, `N-k` along the others. -/
def diagShape : List ℕ → List ℕ → List ℕ → List ℕ
  | N :: Ns, k :: ks, δ :: ds => (if δ = 0 then N else N - k) :: diagShape Ns ks ds
  | _, _, _ => []

/-- `k` is nonzero along every axis where the digit is nonzero. -/
def KPos : List ℕ → List ℕ → Prop
  | k :: ks, δ :: ds => (δ ≠ 0 → k ≠ 0) ∧ KPos ks ds
  | _, _ => True

/-- Consistency of a `Tridiagonal`: one dimension and one offset per axis; every stored diagonal has the right shape; off-diagonals are
stored only along axes with a nonzero offset. -/
structure WF (T : Tri) : Prop where
  dims : T.dims.length = T.rank
  diffs : T.diffs.length = T.rank
  shape : ∀ ind < 3 ^ T.rank, (T.diagonals ind).size ≠ 0 → (T.diagonals ind).shape = diagShape T.dims T.diffs (digits3 T.rank ind)
  kpos : ∀ ind < 3 ^ T.rank, (T.diagonals ind).size ≠ 0 → KPos T.diffs (digits3 T.rank ind)

end CppQED.Spec
