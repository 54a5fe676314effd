import Verif.Spec.Element
import Mathlib.Tactic.IntervalCases

/-!
# Properties of the base classes of elements: C25, C69, C71
-/

namespace CppQED.Elem
open CppQED.Spec Matrix
open ComplexConjugate

theorem add_apply (drhodt : Dens) (m n : ℕ) (x : ℂ) (i j : ℕ) : drhodt.add m n x i j = drhodt i j + if i = m ∧ j = n then x else 0 := by
  unfold Dens.add
  by_cases hi : i = m
  · subst hi
    rw [Function.update_self]
    by_cases hj : j = n
    · subst hj; simp
    · rw [Function.update_of_ne hj]; simp [hj]
  · rw [Function.update_of_ne hi]; simp [hi]

theorem set_apply (psi : Vec) (n : ℕ) (x : ℂ) (i : ℕ) : psi.set n x i = if i = n then x else psi i := by
  unfold Vec.set
  rw [Function.update_apply]

/-- A loop of `+=` over a list of distinct positions adds at each of them once. -/
theorem foldl_additive {α : Type*} (L : List α) (step : Dens → α → Dens) (c : α → ℕ → ℕ → ℂ) (h : ∀ d a i j, step d a i j = d i j + c a i j) (d : Dens) (i j : ℕ) :
    L.foldl step d i j = d i j + (L.map fun a => c a i j).sum := by
  induction L generalizing d with
  | nil => simp
  | cons a L ih => rw [List.foldl_cons, ih, h, List.map_cons, List.sum_cons, add_assoc]

theorem sum_map_range {M : Type*} [AddCommMonoid M] (n : ℕ) (f : ℕ → M) : ((List.range n).map f).sum = ∑ k ∈ Finset.range n, f k := by
  rw [Finset.sum_range]
  induction n with
  | zero => simp
  | succ n ih => rw [List.range_succ, List.map_append, List.sum_append, ih, Fin.sum_univ_castSucc]; simp

theorem sum_map_range' {M : Type*} [AddCommMonoid M] (s n : ℕ) (f : ℕ → M) : ((List.range' s n).map f).sum = ∑ k ∈ Finset.range n, f (s + k) := by
  rw [List.range'_eq_map_range, List.map_map, sum_map_range]; rfl

/-! ## C69: the dispatch of an element's Lindblads -/

theorem foldl_zipIdx_select {α β : Type*} (f : α → β → β) (k : ℕ) : ∀ (Ls : List α) (s : ℕ) (x : β),
    (Ls.zipIdx s).foldl (fun x L => if L.2 = k then f L.1 x else x) x = if k < s then x else match Ls[k - s]? with | none => x | some L => f L x := by
  intro Ls
  induction Ls with
  | nil => intro s x; simp
  | cons L Ls ih =>
    intro s x
    rw [List.zipIdx_cons, List.foldl_cons, ih]
    simp only
    by_cases h : s = k
    · subst h; simp
    · rw [if_neg h]
      by_cases h2 : k < s
      · rw [if_pos h2, if_pos (by omega)]
      · rw [if_neg h2, if_neg (by omega)]
        have e : k - s = (k - (s + 1)) + 1 := by omega
        rw [e, List.getElem?_cons_succ]

/-- **C69.** The Lindblad number `k` of an element acts with the `k`-th jump, the `k`-th superoperator, and its rate is the `k`-th; there are as many rates as Lindblads; numbers out of
range throw. -/
theorem elementLiouvillean_spec (labels : List String) (Ls : List Lindblad) (k : ℕ) (psi : Vec) (rho drhodt : Dens) (m : LDO) :
    let E := elementLiouvillean labels Ls
    (E.rates m).length = Ls.length ∧
    (∀ L, Ls[k]? = some L → E.actWithJ k psi = .ok (L.jump psi) ∧ (E.rates m)[k]? = some (L.rate m) ∧
      E.actWithSuperoperator k rho drhodt = match L.super with | none => .error .superoperatorNotImplemented | some s => .ok (s rho drhodt)) ∧
    (Ls.length ≤ k → E.actWithJ k psi = .error .noSuchLindblad ∧ E.actWithSuperoperator k rho drhodt = .error .noSuchLindblad) := by
  intro E
  refine ⟨by simp [E, elementLiouvillean], ?_, ?_⟩
  · intro L hL
    have hk : ¬ Ls.length ≤ k := by
      have := (List.getElem?_eq_some_iff.1 hL).1; omega
    refine ⟨?_, ?_, ?_⟩
    · simp only [E, elementLiouvillean, hk, if_false]
      rw [foldl_zipIdx_select (fun (L : Lindblad) psi => L.jump psi)]
      simp [hL]
    · simp [E, elementLiouvillean, hL]
    · simp only [E, elementLiouvillean, hk, if_false]
      rw [foldl_zipIdx_select (fun (L : Lindblad) (r : Except Err Dens) => r.bind fun drhodt => L.doActWithSuperoperator rho drhodt)]
      simp only [Nat.not_lt_zero, if_false, Nat.sub_zero, hL, Except.bind, Lindblad.doActWithSuperoperator]
      cases L.super <;> rfl
  · intro hk
    simp [E, elementLiouvillean, hk]

/-- Two Lindblads, the second one without superoperator. -/
example : (elementLiouvillean ["a", "b"] [⟨fun psi => psi, fun _ => 1, some fun _ d => d⟩, ⟨fun psi n => psi (n + 1), fun _ => 2, none⟩]).actWithSuperoperator 1 (fun _ _ => 0) (fun _ _ => 0) =
    .error .superoperatorNotImplemented :=
by
  exact ((elementLiouvillean_spec _ [⟨fun psi => psi, fun _ => 1, some fun _ d => d⟩, ⟨fun psi n => psi (n + 1), fun _ => 2, none⟩] 1 (fun _ => 0) (fun _ _ => 0) (fun _ _ => 0)
    ⟨1, fun _ _ => 0, 0⟩).2.1 _ rfl).2.2

/-! ## C25: phase diffusion -/

/-- The phase flip of level `l`. -/
def flip (d : ℕ) (l : ℕ) : Matrix (Fin d) (Fin d) ℂ := Matrix.diagonal fun i => if (i : ℕ) = l then -1 else 1

/-- **C25.** The diffusive jump number `l` is `√(2D_l)` times the phase flip of level `l`. -/
theorem diffusive_jump (dim : ℕ) (coeffs : List ℝ) (base : Liouvillean) (l : ℕ) (psi : Vec) :
    ∃ psi', (diffusive dim dim coeffs base).actWithJ (base.labels.length + l) psi = .ok psi' ∧
      ket dim psi' = ((Real.sqrt (2 * coeffs.getD l 0) : ℂ) • flip dim l) *ᵥ ket dim psi := by
  unfold diffusive
  simp only [ne_eq, not_true_eq_false, if_false, Nat.add_sub_cancel_left, show ¬ base.labels.length + l < base.labels.length by omega]
  refine ⟨_, rfl, ?_⟩
  funext i
  simp only [ket, set_apply, flip, Matrix.smul_mulVec, Pi.smul_apply, Matrix.mulVec_diagonal, smul_eq_mul]
  split_ifs with h
  · rw [h]; ring
  · ring

/-- **C25.** The dispatch: rates and labels come after those of the base; lower numbers act as in the base; a wrong dimension throws. -/
theorem diffusive_dispatch (dim ext : ℕ) (coeffs : List ℝ) (base : Liouvillean) (k : ℕ) (psi : Vec) (rho drhodt : Dens) (m : LDO) :
    let E := diffusive dim ext coeffs base
    E.labels.length = base.labels.length + dim ∧ E.rates m = base.rates m ++ List.replicate dim (-1) ∧
    (ext = dim → k < base.labels.length → E.actWithJ k psi = base.actWithJ k psi ∧ E.actWithSuperoperator k rho drhodt = base.actWithSuperoperator k rho drhodt) ∧
    (ext ≠ dim → E.actWithJ k psi = .error .dimensionalityMismatch ∧ E.actWithSuperoperator k rho drhodt = .error .dimensionalityMismatch) := by
  intro E
  refine ⟨by simp [E, diffusive], rfl, ?_, ?_⟩
  · intro h hk; simp [E, diffusive, h, hk]
  · intro h; simp [E, diffusive, h]

theorem diffusiveSuperoperator_apply (dim : ℕ) (D : ℝ) (rho drhodt : Dens) (i j : ℕ) (hi : i < dim) (hj : j < dim) :
    diffusiveSuperoperator dim D rho drhodt i j = drhodt i j + if i = j then 2 * D * rho i j else -(6 * D * rho i j) := by
  unfold diffusiveSuperoperator
  rw [foldl_additive (List.range dim) _ (fun m i j => (if i = m ∧ j = m then 2 * D * rho m m else 0) +
      ((List.range' (m + 1) (dim - (m + 1))).map fun n => (if i = m ∧ j = n then -(6 * D * rho m n) else 0) + if i = n ∧ j = m then -(6 * D * rho n m) else 0).sum)
    (fun d m i j => by
      rw [foldl_additive _ _ (fun n i j => (if i = m ∧ j = n then -(6 * D * rho m n) else 0) + if i = n ∧ j = m then -(6 * D * rho n m) else 0)
        (fun d n i j => by rw [add_apply, add_apply, add_assoc]), add_apply, add_assoc])]
  congr 1
  rw [sum_map_range]
  simp only [sum_map_range', Finset.sum_add_distrib]
  rcases lt_trichotomy i j with h | h | h
  · rw [if_neg (by omega)]
    have e1 : ∑ x ∈ Finset.range dim, (if i = x ∧ j = x then 2 * (D : ℂ) * rho x x else 0) = 0 := Finset.sum_eq_zero fun x _ => if_neg (by omega)
    have e3 : ∑ x ∈ Finset.range dim, ∑ k ∈ Finset.range (dim - (x + 1)), (if i = x + 1 + k ∧ j = x then -(6 * (D : ℂ) * rho (x + 1 + k) x) else 0) = 0 :=
      Finset.sum_eq_zero fun x _ => Finset.sum_eq_zero fun k _ => if_neg (by omega)
    rw [e1, e3, zero_add, add_zero, Finset.sum_eq_single_of_mem i (by simpa using hi), Finset.sum_eq_single_of_mem (j - (i + 1)) (by simp; omega)]
    · rw [show i + 1 + (j - (i + 1)) = j by omega]; simp
    · intro k hk hne; exact if_neg (by omega)
    · intro x hx hne; exact Finset.sum_eq_zero fun k _ => if_neg (by omega)
  · subst h
    rw [if_pos rfl]
    have e2 : ∑ x ∈ Finset.range dim, ∑ k ∈ Finset.range (dim - (x + 1)), (if i = x ∧ i = x + 1 + k then -(6 * (D : ℂ) * rho x (x + 1 + k)) else 0) = 0 :=
      Finset.sum_eq_zero fun x _ => Finset.sum_eq_zero fun k _ => if_neg (by omega)
    have e3 : ∑ x ∈ Finset.range dim, ∑ k ∈ Finset.range (dim - (x + 1)), (if i = x + 1 + k ∧ i = x then -(6 * (D : ℂ) * rho (x + 1 + k) x) else 0) = 0 :=
      Finset.sum_eq_zero fun x _ => Finset.sum_eq_zero fun k _ => if_neg (by omega)
    rw [e2, e3, add_zero, add_zero, Finset.sum_eq_single_of_mem i (by simpa using hi)]
    · simp
    · intro x hx hne; exact if_neg (by omega)
  · rw [if_neg (by omega)]
    have e1 : ∑ x ∈ Finset.range dim, (if i = x ∧ j = x then 2 * (D : ℂ) * rho x x else 0) = 0 := Finset.sum_eq_zero fun x _ => if_neg (by omega)
    have e2 : ∑ x ∈ Finset.range dim, ∑ k ∈ Finset.range (dim - (x + 1)), (if i = x ∧ j = x + 1 + k then -(6 * (D : ℂ) * rho x (x + 1 + k)) else 0) = 0 :=
      Finset.sum_eq_zero fun x _ => Finset.sum_eq_zero fun k _ => if_neg (by omega)
    rw [e1, e2, zero_add, zero_add, Finset.sum_eq_single_of_mem j (by simpa using hj), Finset.sum_eq_single_of_mem (i - (j + 1)) (by simp; omega)]
    · rw [show j + 1 + (i - (j + 1)) = i by omega]; simp
    · intro k hk hne; exact if_neg (by omega)
    · intro x hx hne; exact Finset.sum_eq_zero fun k _ => if_neg (by omega)

/-- The sum over all diffusive jumps, of `J_l ρ J_l†`. -/
noncomputable def flipSum (dim : ℕ) (coeffs : List ℝ) (ρ : Matrix (Fin dim) (Fin dim) ℂ) : Matrix (Fin dim) (Fin dim) ℂ :=
  ∑ l ∈ Finset.range dim, ((Real.sqrt (2 * coeffs.getD l 0) : ℂ) • flip dim l) * ρ * ((Real.sqrt (2 * coeffs.getD l 0) : ℂ) • flip dim l)ᴴ

theorem flipSum_apply (dim : ℕ) (coeffs : List ℝ) (hD : ∀ l < dim, 0 ≤ coeffs.getD l 0) (ρ : Matrix (Fin dim) (Fin dim) ℂ) (i j : Fin dim) :
    flipSum dim coeffs ρ i j = (∑ l ∈ Finset.range dim, 2 * (coeffs.getD l 0 : ℂ) * ((if (i : ℕ) = l then -1 else 1) * (if (j : ℕ) = l then -1 else 1))) * ρ i j := by
  unfold flipSum
  rw [Matrix.sum_apply, Finset.sum_mul]
  refine Finset.sum_congr rfl fun l hl => ?_
  have hs : (Real.sqrt (2 * coeffs.getD l 0) : ℂ) * (Real.sqrt (2 * coeffs.getD l 0) : ℂ) = 2 * (coeffs.getD l 0 : ℂ) := by
    rw [← Complex.ofReal_mul, Real.mul_self_sqrt (by have := hD l (by simpa using hl); linarith)]; push_cast; ring
  rw [Matrix.conjTranspose_smul, flip, Matrix.diagonal_conjTranspose, Matrix.mul_smul, Matrix.smul_mul, Matrix.smul_mul, Matrix.smul_apply, Matrix.smul_apply, Matrix.mul_diagonal,
    Matrix.diagonal_mul, smul_eq_mul, smul_eq_mul, Pi.star_apply]
  simp only [Complex.star_def]
  rw [Complex.conj_ofReal, ← hs]
  have : conj (if (j : ℕ) = l then (-1 : ℂ) else 1) = if (j : ℕ) = l then -1 else 1 := by split_ifs <;> simp
  rw [this]
  ring

/-- **C25.** With equal diffusion coefficients the superoperator of the phase flips is the sum of those of the individual jumps minus `2D(dim-1)ρ`: the difference is a multiple of `ρ`, which
the renormalisation of the density operator at the end of each step removes. -/
theorem diffusive_superoperator (dim : ℕ) (hdim : 0 < dim) (D : ℝ) (hD : 0 ≤ D) (rho drhodt : Dens) (base : Liouvillean) :
    ∃ d', (diffusive dim dim (List.replicate dim D) base).actWithSuperoperator base.labels.length rho drhodt = .ok d' ∧
      mat dim d' = mat dim drhodt + flipSum dim (List.replicate dim D) (mat dim rho) - ((2 * D * (dim - 1) : ℝ) : ℂ) • mat dim rho ∧
    ∀ l, 0 < l → (diffusive dim dim (List.replicate dim D) base).actWithSuperoperator (base.labels.length + l) rho drhodt = .ok drhodt := by
  have hg : ∀ l < dim, (List.replicate dim D).getD l 0 = D := fun l hl => by simp [List.getD_eq_getElem?_getD, List.getElem?_replicate, hl]
  unfold diffusive
  simp only [ne_eq, not_true_eq_false, if_false, lt_irrefl, if_true]
  refine ⟨_, rfl, ?_, ?_⟩
  · ext i j
    rw [Matrix.sub_apply, Matrix.add_apply, flipSum_apply dim _ (fun l hl => by rw [hg l hl]; exact hD)]
    simp only [mat, Matrix.of_apply, Matrix.smul_apply, smul_eq_mul]
    rw [hg 0 hdim, diffusiveSuperoperator_apply dim D rho drhodt i j i.2 j.2, add_sub_assoc]
    congr 1
    have hs : ∑ l ∈ Finset.range dim, 2 * ((List.replicate dim D).getD l 0 : ℂ) * ((if (i : ℕ) = l then -1 else 1) * (if (j : ℕ) = l then -1 else 1)) =
        2 * D * ∑ l ∈ Finset.range dim, ((if (i : ℕ) = l then -1 else 1 : ℂ) * (if (j : ℕ) = l then -1 else 1)) := by
      rw [Finset.mul_sum]
      exact Finset.sum_congr rfl fun l hl => by rw [hg l (by simpa using hl)]
    rw [hs]
    have hp : ∀ l, ((if (i : ℕ) = l then -1 else 1 : ℂ) * (if (j : ℕ) = l then -1 else 1)) =
        1 + ((if (i : ℕ) = l then -2 else 0) + (if (j : ℕ) = l then -2 else 0)) + if (i : ℕ) = l then (if (j : ℕ) = l then 4 else 0) else 0 := by
      intro l; split_ifs <;> norm_num
    simp only [hp, Finset.sum_add_distrib, Finset.sum_ite_eq, Finset.mem_range, i.2, j.2, if_true, Finset.sum_const, Finset.card_range, nsmul_eq_mul, mul_one]
    push_cast
    by_cases h : (i : ℕ) = j
    · rw [if_pos h, if_pos h.symm]; ring
    · rw [if_neg h, if_neg (fun h' => h h'.symm)]; ring
  · intro l hl
    have h1 : ¬ base.labels.length + l < base.labels.length := by omega
    have h2 : ¬ base.labels.length + l = base.labels.length := by omega
    simp only [h1, h2, if_false]

/-- **C71** (violated). With different coefficients the superoperator does not match the jumps, not even up to a multiple of `ρ`: only the first coefficient is used. -/
theorem diffusive_superoperator_wrong : ∃ (coeffs : List ℝ) (rho : Dens), (∀ l < 2, 0 ≤ coeffs.getD l 0) ∧
    ∀ c : ℂ, mat 2 (diffusiveSuperoperator 2 (coeffs.getD 0 0) rho fun _ _ => 0) ≠ flipSum 2 coeffs (mat 2 rho) + c • mat 2 rho := by
  refine ⟨[0, 1], fun _ _ => 1, ?_, ?_⟩
  · intro l hl
    interval_cases l <;> simp
  · intro c h
    have h00 := congrFun (congrFun h 0) 0
    have h01 := congrFun (congrFun h 0) 1
    have hD : ∀ l < 2, 0 ≤ ([0, 1] : List ℝ).getD l 0 := by intro l hl; interval_cases l <;> simp
    rw [Matrix.add_apply, flipSum_apply 2 _ hD] at h00 h01
    simp only [mat, Matrix.of_apply, Matrix.smul_apply, smul_eq_mul] at h00 h01
    rw [diffusiveSuperoperator_apply 2 _ _ _ _ _ (by norm_num) (by norm_num)] at h00 h01
    simp [Finset.sum_range_succ] at h00 h01
    have : (4 : ℂ) = 0 := by linear_combination h01 - h00
    norm_num at this

/-- **C71**, partial: what holds with arbitrary coefficients is that the superoperator is that of a single coefficient, the first one. Missing: agreement with the jumps for coefficients
which are not all equal, refuted by `diffusive_superoperator_wrong`. -/
theorem diffusive_superoperator_partial (dim : ℕ) (hdim : 0 < dim) (coeffs : List ℝ) (h0 : 0 ≤ coeffs.getD 0 0) (rho drhodt : Dens) (base : Liouvillean) :
    ∃ d', (diffusive dim dim coeffs base).actWithSuperoperator base.labels.length rho drhodt = .ok d' ∧
      mat dim d' = mat dim drhodt + flipSum dim (List.replicate dim (coeffs.getD 0 0)) (mat dim rho) - ((2 * coeffs.getD 0 0 * (dim - 1) : ℝ) : ℂ) • mat dim rho := by
  obtain ⟨d', h1, h2, -⟩ := diffusive_superoperator dim hdim (coeffs.getD 0 0) h0 rho drhodt base
  refine ⟨d', ?_, h2⟩
  rw [← h1]
  unfold diffusive
  simp only [ne_eq, not_true_eq_false, if_false, lt_irrefl, if_true]
  congr 2
  simp [List.getD_eq_getElem?_getD, List.getElem?_replicate, hdim]

end CppQED.Elem
