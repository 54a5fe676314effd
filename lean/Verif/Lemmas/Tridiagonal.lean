import Verif.Spec.Tridiagonal
import Mathlib.Tactic.Ring
import Mathlib.Tactic.IntervalCases
import Mathlib.Tactic.Linarith
import Mathlib.Algebra.BigOperators.Intervals
import Mathlib.Algebra.Order.BigOperators.Group.Finset

/-! Auxiliary lemmas about the model of `Tridiagonal`. -/

namespace CppQED.Tridiag
open CppQED.Spec ComplexConjugate

theorem sum_natBox_nil {M} [AddCommMonoid M] (f : NIdx → M) : ∑ i ∈ natBox [], f i = f [] := by simp [natBox]

theorem sum_natBox_cons {M} [AddCommMonoid M] (n : ℕ) (ns : List ℕ) (f : NIdx → M) :
    ∑ i ∈ natBox (n :: ns), f i = ∑ a ∈ Finset.range n, ∑ b ∈ natBox ns, f (a :: b) := by
  rw [natBox, Finset.sum_map, Finset.sum_product]; rfl

theorem mem_natBox {ns : List ℕ} {i : NIdx} : i ∈ natBox ns ↔ List.Forall₂ (· < ·) i ns := by
  induction ns generalizing i with
  | nil => simp [natBox]
  | cons n ns ih =>
    rw [natBox, Finset.mem_map]
    constructor
    · rintro ⟨⟨a, b⟩, h, rfl⟩
      rw [Finset.mem_product] at h
      exact List.Forall₂.cons (Finset.mem_range.1 h.1) (ih.1 h.2)
    · intro h
      cases h with
      | cons h₁ h₂ => exact ⟨(_, _), Finset.mem_product.2 ⟨Finset.mem_range.2 h₁, ih.2 h₂⟩, rfl⟩

theorem length_of_mem {ns : List ℕ} {i : NIdx} (h : i ∈ natBox ns) : i.length = ns.length := (mem_natBox.1 h).length_eq

theorem natBox_append {ns ms : List ℕ} {i j : NIdx} (hi : i ∈ natBox ns) (hj : j ∈ natBox ms) : i ++ j ∈ natBox (ns ++ ms) := by
  rw [mem_natBox] at *
  exact List.rel_append hi hj

theorem sum_natBox_append {M} [AddCommMonoid M] (ns ms : List ℕ) (f : NIdx → M) :
    ∑ i ∈ natBox (ns ++ ms), f i = ∑ a ∈ natBox ns, ∑ b ∈ natBox ms, f (a ++ b) := by
  induction ns generalizing f with
  | nil => simp [sum_natBox_nil]
  | cons n ns ih =>
    rw [List.cons_append, sum_natBox_cons, sum_natBox_cons]
    refine Finset.sum_congr rfl fun a _ => ?_
    rw [ih]; rfl

/-! ## Base-3 digits -/

theorem digits3_length (r ind : ℕ) : (digits3 r ind).length = r := by
  induction r with
  | zero => rfl
  | succ r ih => simp [digits3, ih]

theorem digits3_lt {r ind δ : ℕ} (h : δ ∈ digits3 r ind) : δ < 3 := by
  induction r with
  | zero => simp [digits3] at h
  | succ r ih =>
    simp only [digits3, List.mem_cons] at h
    rcases h with rfl | h
    · exact Nat.mod_lt _ (by norm_num)
    · exact ih h

theorem digits3_add_mul (r ind a : ℕ) : digits3 r (ind + a * 3 ^ r) = digits3 r ind := by
  induction r generalizing a with
  | zero => rfl
  | succ r ih =>
    have h₁ : ind + a * 3 ^ (r + 1) = ind + (3 * a) * 3 ^ r := by rw [pow_succ]; ring
    simp only [digits3, h₁, ih]
    congr 1
    rw [Nat.add_mul_div_right _ _ (by positivity)]
    omega

theorem digits3_mod (r m : ℕ) : digits3 r (m % 3 ^ r) = digits3 r m := by
  have h := digits3_add_mul r (m % 3 ^ r) (m / 3 ^ r)
  rw [mul_comm, Nat.mod_add_div] at h
  exact h.symm

theorem digits3_append (r₁ r₂ m : ℕ) : digits3 (r₁ + r₂) m = digits3 r₁ (m / 3 ^ r₂) ++ digits3 r₂ (m % 3 ^ r₂) := by
  rw [digits3_mod]
  induction r₁ with
  | zero => simp [digits3]
  | succ r ih =>
    rw [Nat.succ_add, digits3, digits3, ih, List.cons_append]
    congr 1
    rw [Nat.div_div_eq_div_mul, ← pow_add, Nat.add_comm r₂ r]

/-- The number with given digits. -/
def ofDigits3 : List ℕ → ℕ
  | [] => 0
  | δ :: ds => δ * 3 ^ ds.length + ofDigits3 ds

theorem ofDigits3_lt {ds : List ℕ} (h : ∀ δ ∈ ds, δ < 3) : ofDigits3 ds < 3 ^ ds.length := by
  induction ds with
  | nil => simp [ofDigits3]
  | cons δ ds ih =>
    have h₁ := ih fun x hx => h x (List.mem_cons_of_mem _ hx)
    have h₂ := h δ (List.mem_cons_self ..)
    simp only [ofDigits3, List.length_cons, pow_succ]
    have : δ * 3 ^ ds.length ≤ 2 * 3 ^ ds.length := Nat.mul_le_mul_right _ (by omega)
    omega

theorem digits3_ofDigits3 {ds : List ℕ} (h : ∀ δ ∈ ds, δ < 3) : digits3 ds.length (ofDigits3 ds) = ds := by
  induction ds with
  | nil => rfl
  | cons δ ds ih =>
    have hs : ∀ x ∈ ds, x < 3 := fun x hx => h x (List.mem_cons_of_mem _ hx)
    have h₁ := ih hs
    have h₂ := h δ (List.mem_cons_self ..)
    have h₃ := ofDigits3_lt hs
    simp only [List.length_cons, digits3, ofDigits3]
    congr 1
    · rw [mul_comm, Nat.mul_add_div (by positivity), Nat.div_eq_of_lt h₃, Nat.add_zero, Nat.mod_eq_of_lt h₂]
    · rw [Nat.add_comm, digits3_add_mul, h₁]

theorem ofDigits3_digits3 {r ind : ℕ} (h : ind < 3 ^ r) : ofDigits3 (digits3 r ind) = ind := by
  induction r generalizing ind with
  | zero => simp [digits3, ofDigits3] at *; omega
  | succ r ih =>
    have hq : ind / 3 ^ r < 3 := by
      rw [Nat.div_lt_iff_lt_mul (by positivity)]; rw [pow_succ] at h; linarith
    have := ih (ind := ind % 3 ^ r) (Nat.mod_lt _ (by positivity))
    rw [digits3_mod] at this
    rw [digits3, ofDigits3, digits3_length, this, Nat.mod_eq_of_lt hq, mul_comm]
    exact Nat.div_add_mod _ _

/-! ## `apply` -/

/-- The digit of the ranges of `dpsidt`. -/
def dD (δ : ℕ) : ℕ := if δ = 1 then 2 else if δ = 2 then 1 else 0
/-- The digit of the ranges of the diagonal. -/
def dA (δ : ℕ) : ℕ := if δ = 0 then 0 else 1

/-- One term of `apply`. -/
def term (T : Tri) (psi : NIdx → ℂ) (i : NIdx) (start : ℕ) (vD vA vP : List ℕ) : ℂ :=
  if (T.diagonals start).size ≠ 0 ∧ inRanges (rangesAt T.dims T.diffs vD) i = true then
    (T.diagonals start).val (shift (rangesAt T.dims T.diffs vD) (rangesAt T.dims T.diffs vA) i) *
      psi (shift (rangesAt T.dims T.diffs vD) (rangesAt T.dims T.diffs vP) i)
  else 0

theorem addBlock_eq (T : Tri) (start : ℕ) (vD vA vP : List ℕ) (psi d : NIdx → ℂ) (i : NIdx) :
    addBlock T start vD vA vP psi d i = d i + term T psi i start vD vA vP := by
  unfold addBlock term
  by_cases h : (T.diagonals start).size ≠ 0
  · by_cases h' : inRanges (rangesAt T.dims T.diffs vD) i = true <;> simp [h, h']
  · simp [h]

theorem sum_range_three_mul {M} [AddCommMonoid M] (n : ℕ) (f : ℕ → M) :
    ∑ x ∈ Finset.range (3 * n), f x =
      ∑ x ∈ Finset.range n, f x + ∑ x ∈ Finset.range n, f (n + x) + ∑ x ∈ Finset.range n, f (2 * n + x) := by
  have : 3 * n = n + n + n := by ring
  rw [this, Finset.sum_range_add, Finset.sum_range_add]
  congr 1
  refine Finset.sum_congr rfl fun x _ => ?_
  congr 1; ring

theorem doApply_eq (T : Tri) (rem start : ℕ) (vD vA vP : List ℕ) (psi d : NIdx → ℂ) (i : NIdx) :
    doApply T rem start vD vA vP psi d i =
      d i + ∑ x ∈ Finset.range (3 ^ rem), term T psi i (start + x) (vD ++ (digits3 rem x).map dD) (vA ++ (digits3 rem x).map dA)
        (vP ++ digits3 rem x) := by
  induction rem generalizing start vD vA vP d with
  | zero => simp [doApply, addBlock_eq, digits3]
  | succ rem ih =>
    simp only [doApply]
    rw [ih, ih, ih, pow_succ, mul_comm (3 ^ rem) 3, sum_range_three_mul, ← add_assoc, ← add_assoc]
    have e0 : ∀ x ∈ Finset.range (3 ^ rem), digits3 (rem + 1) x = 0 :: digits3 rem x := by
      intro x hx
      rw [digits3, Nat.div_eq_of_lt (Finset.mem_range.1 hx)]
    have e1 : ∀ x ∈ Finset.range (3 ^ rem), digits3 (rem + 1) (3 ^ rem + x) = 1 :: digits3 rem x := by
      intro x hx
      rw [digits3, Nat.add_div_left _ (by positivity), Nat.div_eq_of_lt (Finset.mem_range.1 hx), Nat.add_comm (3 ^ rem) x]
      have := digits3_add_mul rem x 1
      rw [one_mul] at this
      rw [this]
    have e2 : ∀ x ∈ Finset.range (3 ^ rem), digits3 (rem + 1) (2 * 3 ^ rem + x) = 2 :: digits3 rem x := by
      intro x hx
      rw [digits3, mul_comm, Nat.mul_add_div (by positivity), Nat.div_eq_of_lt (Finset.mem_range.1 hx), mul_comm, Nat.add_comm (2 * 3 ^ rem) x,
        digits3_add_mul]
    refine congrArg₂ _ (congrArg₂ _ (congrArg₂ _ rfl ?_) ?_) ?_ <;> refine Finset.sum_congr rfl fun x hx => ?_
    · rw [e0 x hx]; simp [dD, dA]
    · rw [e1 x hx]; simp [dD, dA, Nat.add_assoc]
    · rw [e2 x hx]; simp [dD, dA, Nat.add_assoc]

theorem sum_onDiag (dims diffs ds : List ℕ) (i : NIdx) (hi : i ∈ natBox dims) (h₁ : diffs.length = dims.length)
    (h₂ : ds.length = dims.length) (h₃ : ∀ δ ∈ ds, δ < 3) (f : NIdx → NIdx → ℂ) :
    ∑ j ∈ natBox dims, (if OnDiags ds diffs i j then f (posOns ds i j) j else 0) =
      if inRanges (rangesAt dims diffs (ds.map dD)) i = true then
        f (shift (rangesAt dims diffs (ds.map dD)) (rangesAt dims diffs (ds.map dA)) i)
          (shift (rangesAt dims diffs (ds.map dD)) (rangesAt dims diffs ds) i) else 0 := by
  induction dims generalizing diffs ds i f with
  | nil =>
    obtain rfl : diffs = [] := by simpa using h₁
    obtain rfl : ds = [] := by simpa using h₂
    obtain rfl : i = [] := by simpa [natBox] using hi
    simp [natBox, OnDiags, posOns, rangesAt, inRanges, shift]
  | cons N dims ih =>
    obtain ⟨k, diffs, rfl⟩ : ∃ k ks, diffs = k :: ks := by cases diffs <;> simp_all
    obtain ⟨δ, ds, rfl⟩ : ∃ k ks, ds = k :: ks := by cases ds <;> simp_all
    obtain ⟨a, i, rfl⟩ : ∃ k ks, i = k :: ks := by
      rw [mem_natBox] at hi; cases hi; exact ⟨_, _, rfl⟩
    have hm := mem_natBox.1 hi
    rw [List.forall₂_cons] at hm
    have hi' := mem_natBox.2 hm.2
    have hδ := h₃ δ (List.mem_cons_self ..)
    have hd : ∀ x ∈ ds, x < 3 := fun x hx => h₃ x (List.mem_cons_of_mem _ hx)
    simp only [List.length_cons, Nat.add_right_cancel_iff] at h₁ h₂
    rw [sum_natBox_cons]
    have key : ∀ b, ∑ j ∈ natBox dims, (if OnDiags (δ :: ds) (k :: diffs) (a :: i) (b :: j) then f (posOns (δ :: ds) (a :: i) (b :: j)) (b :: j) else 0) =
        if OnDiag δ k a b then (if inRanges (rangesAt dims diffs (ds.map dD)) i = true then
          f (posOn δ a b :: shift (rangesAt dims diffs (ds.map dD)) (rangesAt dims diffs (ds.map dA)) i)
          (b :: shift (rangesAt dims diffs (ds.map dD)) (rangesAt dims diffs ds) i) else 0) else 0 := by
      intro b
      by_cases hb : OnDiag δ k a b
      · rw [if_pos hb, ← ih diffs ds i hi' h₁ h₂ hd (fun x y => f (posOn δ a b :: x) (b :: y))]
        refine Finset.sum_congr rfl fun j _ => ?_
        simp [OnDiags, hb, posOns]
      · rw [if_neg hb]
        refine Finset.sum_eq_zero fun j _ => ?_
        simp [OnDiags, hb]
    rw [Finset.sum_congr rfl fun b _ => key b]
    simp only [rangesAt, List.map_cons, List.zip_cons_cons, List.zipWith_cons_cons]
    have hN := hm.1
    interval_cases δ
    · simp only [OnDiag, dD, dA, range3, posOn, inRanges, shift]
      simp [hN]
    · simp only [OnDiag, dD, dA, range3, posOn, inRanges, shift]
      by_cases hk : k ≤ a
      · rw [Finset.sum_eq_single (a - k)]
        · have e : a < k + (N - k) := by omega
          simp [hk, e, rangesAt]
        · intro b _ hb
          exact if_neg (by simp; omega)
        · intro hb
          rw [Finset.mem_range] at hb; omega
      · rw [Finset.sum_eq_zero]
        · simp [hk]
        · intro b _
          exact if_neg (by simp; omega)
    · simp only [OnDiag, dD, dA, range3, posOn, inRanges, shift]
      by_cases hk : a < N - k
      · rw [Finset.sum_eq_single (a + k)]
        · simp [hk, rangesAt]
        · intro b _ hb
          exact if_neg (by simp; omega)
        · intro hb
          rw [Finset.mem_range] at hb; omega
      · rw [Finset.sum_eq_zero]
        · simp [hk]
        · intro b hb
          rw [Finset.mem_range] at hb
          exact if_neg (by simp; omega)

/-- `apply` multiplies by the matrix of `entry`. -/
theorem apply_eq (T : Tri) (h₁ : T.dims.length = T.rank) (h₂ : T.diffs.length = T.rank) (psi d : NIdx → ℂ) (i : NIdx) (hi : i ∈ natBox T.dims) :
    apply T psi d i = d i + ∑ j ∈ natBox T.dims, entry T i j * psi j := by
  rw [apply, doApply_eq]
  congr 1
  simp only [entry, Finset.sum_mul]
  rw [Finset.sum_comm]
  refine Finset.sum_congr rfl fun x _ => ?_
  have := sum_onDiag T.dims T.diffs (digits3 T.rank x) i hi (by omega) (by rw [digits3_length]; omega) (fun _ => digits3_lt)
    (fun p j => (T.diagonals x).val p * psi j)
  simp only [term, Nat.zero_add, List.nil_append]
  by_cases hs : (T.diagonals x).size ≠ 0
  · simp only [hs, ne_eq, not_false_eq_true, true_and]
    rw [← this]
    refine Finset.sum_congr rfl fun j _ => ?_
    split_ifs <;> simp
  · simp [hs]

/-! ## Direct product -/

theorem onDiags_append {d₁ k₁ : List ℕ} {i₁ j₁ : NIdx} (hk : k₁.length = d₁.length) (hi : i₁.length = d₁.length) (hj : j₁.length = d₁.length)
    (d₂ k₂ : List ℕ) (i₂ j₂ : NIdx) :
    OnDiags (d₁ ++ d₂) (k₁ ++ k₂) (i₁ ++ i₂) (j₁ ++ j₂) ↔ OnDiags d₁ k₁ i₁ j₁ ∧ OnDiags d₂ k₂ i₂ j₂ := by
  induction d₁ generalizing k₁ i₁ j₁ with
  | nil =>
    obtain rfl : k₁ = [] := by simpa using hk
    obtain rfl : i₁ = [] := by simpa using hi
    obtain rfl : j₁ = [] := by simpa using hj
    simp [OnDiags]
  | cons δ d₁ ih =>
    obtain ⟨k, k₁, rfl⟩ : ∃ k ks, k₁ = k :: ks := by cases k₁ <;> simp_all
    obtain ⟨i, i₁, rfl⟩ : ∃ k ks, i₁ = k :: ks := by cases i₁ <;> simp_all
    obtain ⟨j, j₁, rfl⟩ : ∃ k ks, j₁ = k :: ks := by cases j₁ <;> simp_all
    simp only [List.cons_append, OnDiags, and_assoc]
    rw [ih (by simpa using hk) (by simpa using hi) (by simpa using hj)]

theorem posOns_append {d₁ : List ℕ} {i₁ j₁ : NIdx} (hi : i₁.length = d₁.length) (hj : j₁.length = d₁.length)
    (d₂ : List ℕ) (i₂ j₂ : NIdx) : posOns (d₁ ++ d₂) (i₁ ++ i₂) (j₁ ++ j₂) = posOns d₁ i₁ j₁ ++ posOns d₂ i₂ j₂ := by
  induction d₁ generalizing i₁ j₁ with
  | nil =>
    obtain rfl : i₁ = [] := by simpa using hi
    obtain rfl : j₁ = [] := by simpa using hj
    simp [posOns]
  | cons δ d₁ ih =>
    obtain ⟨i, i₁, rfl⟩ : ∃ k ks, i₁ = k :: ks := by cases i₁ <;> simp_all
    obtain ⟨j, j₁, rfl⟩ : ∃ k ks, j₁ = k :: ks := by cases j₁ <;> simp_all
    simp only [List.cons_append, posOns]
    rw [ih (by simpa using hi) (by simpa using hj)]

theorem posOns_length {d : List ℕ} {i j : NIdx} (hi : i.length = d.length) (hj : j.length = d.length) : (posOns d i j).length = d.length := by
  induction d generalizing i j with
  | nil => simp [posOns]
  | cons δ d ih =>
    obtain ⟨a, i, rfl⟩ : ∃ k ks, i = k :: ks := by cases i <;> simp_all
    obtain ⟨b, j, rfl⟩ : ∃ k ks, j = k :: ks := by cases j <;> simp_all
    simp only [posOns, List.length_cons]
    rw [ih (by simpa using hi) (by simpa using hj)]

theorem sum_range_mul' {M} [AddCommMonoid M] (a b : ℕ) (f : ℕ → M) :
    ∑ m ∈ Finset.range (a * b), f m = ∑ x ∈ Finset.range a, ∑ y ∈ Finset.range b, f (x * b + y) := by
  induction a with
  | zero => simp
  | succ a ih => rw [Nat.succ_mul, Finset.sum_range_add, ih, Finset.sum_range_succ]

theorem direct_size (mult : Bool) (r : ℕ) (d₁ d₂ : Diag) : (direct mult r d₁ d₂).size = d₁.size * d₂.size := by
  simp [direct, Diag.size]

theorem entry_product {t₁ t₂ P : Tri} (h : product t₁ t₂ = .ok P) (hd : t₁.diffs.length = t₁.rank) {i₁ j₁ : NIdx} (hi : i₁.length = t₁.rank)
    (hj : j₁.length = t₁.rank) (i₂ j₂ : NIdx) :
    entry P (i₁ ++ i₂) (j₁ ++ j₂) = entry t₁ i₁ j₁ * entry t₂ i₂ j₂ := by
  unfold product at h
  split_ifs at h
  injection h with h
  subst h
  simp only [entry]
  rw [pow_add, sum_range_mul', Finset.sum_mul_sum]
  refine Finset.sum_congr rfl fun x hx => Finset.sum_congr rfl fun y hy => ?_
  rw [Finset.mem_range] at hx hy
  have e₁ : (x * 3 ^ t₂.rank + y) / 3 ^ t₂.rank = x := by
    rw [mul_comm, Nat.mul_add_div (by positivity), Nat.div_eq_of_lt hy, Nat.add_zero]
  have e₂ : (x * 3 ^ t₂.rank + y) % 3 ^ t₂.rank = y := by
    rw [mul_comm, Nat.mul_add_mod, Nat.mod_eq_of_lt hy]
  have ho := onDiags_append (d₁ := digits3 t₁.rank x) (k₁ := t₁.diffs) (i₁ := i₁) (j₁ := j₁) (by rw [digits3_length, hd])
    (by rw [digits3_length, hi]) (by rw [digits3_length, hj]) (digits3 t₂.rank y) t₂.diffs i₂ j₂
  rw [digits3_append, e₁, e₂]
  simp only [ho]
  rw [posOns_append (by rw [digits3_length, hi]) (by rw [digits3_length, hj])]
  simp only [directDiagonals, e₁, e₂, direct_size]
  have hl : (posOns (digits3 t₁.rank x) i₁ j₁).length = t₁.rank := by
    rw [posOns_length (by rw [digits3_length, hi]) (by rw [digits3_length, hj]), digits3_length]
  simp only [direct, if_true, List.take_left' hl, List.drop_left' hl]
  by_cases s₁ : (t₁.diagonals x).size = 0
  · simp [s₁]
  by_cases s₂ : (t₂.diagonals y).size = 0
  · simp [s₂]
  by_cases o₁ : OnDiags (digits3 t₁.rank x) t₁.diffs i₁ j₁
  · by_cases o₂ : OnDiags (digits3 t₂.rank y) t₂.diffs i₂ j₂
    · simp [s₁, s₂, o₁, o₂]
    · simp [o₂]
  · simp [o₁]

/-! ## Hermitian conjugation -/

/-- Transposition of a digit. -/
def τ (δ : ℕ) : ℕ := (3 - δ) % 3

theorem τ_lt (δ : ℕ) : τ δ < 3 := Nat.mod_lt _ (by norm_num)

theorem transposeLoop_eq (k ind res : ℕ) (h : ind < 3 ^ k) : transposeLoop k ind res = res + ofDigits3 ((digits3 k ind).map τ) := by
  induction k generalizing ind res with
  | zero => simp [transposeLoop, digits3, ofDigits3]
  | succ k ih =>
    have hq : ind / 3 ^ k < 3 := by
      rw [Nat.div_lt_iff_lt_mul (by positivity)]; rw [pow_succ] at h; linarith
    have hm : ind - ind / 3 ^ k * 3 ^ k = ind % 3 ^ k := by
      have := Nat.div_add_mod ind (3 ^ k)
      rw [mul_comm] at this
      omega
    simp only [transposeLoop]
    rw [hm, ih _ _ (Nat.mod_lt _ (by positivity)), digits3_mod, digits3, Nat.mod_eq_of_lt hq, List.map_cons, ofDigits3, List.length_map,
      digits3_length, τ, Nat.add_assoc]

theorem transposeIndex_eq {r ind : ℕ} (h : ind < 3 ^ r) : transposeIndex r ind = ofDigits3 ((digits3 r ind).map τ) := by
  rw [transposeIndex, transposeLoop_eq _ _ _ h, Nat.zero_add]

theorem digits3_transposeIndex {r ind : ℕ} (h : ind < 3 ^ r) : digits3 r (transposeIndex r ind) = (digits3 r ind).map τ := by
  have := digits3_ofDigits3 (ds := (digits3 r ind).map τ) (by simp [τ_lt])
  rwa [List.length_map, digits3_length, ← transposeIndex_eq h] at this

theorem transposeIndex_lt {r ind : ℕ} (h : ind < 3 ^ r) : transposeIndex r ind < 3 ^ r := by
  have := ofDigits3_lt (ds := (digits3 r ind).map τ) (by simp [τ_lt])
  rwa [List.length_map, digits3_length, ← transposeIndex_eq h] at this

theorem τ_τ {δ : ℕ} (h : δ < 3) : τ (τ δ) = δ := by interval_cases δ <;> rfl

theorem map_τ_τ {ds : List ℕ} (h : ∀ δ ∈ ds, δ < 3) : (ds.map τ).map τ = ds := by
  rw [List.map_map]
  conv_rhs => rw [← List.map_id ds]
  exact List.map_congr_left fun x hx => τ_τ (h x hx)

theorem transposeIndex_transposeIndex {r ind : ℕ} (h : ind < 3 ^ r) : transposeIndex r (transposeIndex r ind) = ind := by
  rw [transposeIndex_eq (transposeIndex_lt h), digits3_transposeIndex h, map_τ_τ fun _ => digits3_lt, ofDigits3_digits3 h]

theorem foldl_update (r : ℕ) (g : ℕ → Diag) (e : ℕ → Diag) (n : ℕ) (hn : n ≤ 3 ^ r) {x : ℕ} (hx : x < 3 ^ r) :
    ((List.range n).foldl (fun ds ind => Function.update ds (transposeIndex r ind) (g ind)) e) x =
      if transposeIndex r x < n then g (transposeIndex r x) else e x := by
  induction n with
  | zero => simp
  | succ n ih =>
    rw [List.range_succ, List.foldl_append, List.foldl_cons, List.foldl_nil]
    by_cases h : x = transposeIndex r n
    · subst h
      rw [Function.update_self, transposeIndex_transposeIndex (by omega), if_pos (by omega)]
    · rw [Function.update_of_ne h, ih (by omega)]
      have : transposeIndex r x ≠ n := by
        rintro rfl
        exact h (transposeIndex_transposeIndex hx).symm
      by_cases h' : transposeIndex r x < n
      · rw [if_pos h', if_pos (by omega)]
      · rw [if_neg h', if_neg (by omega)]

theorem hc_diagonals (T : Tri) {x : ℕ} (hx : x < 3 ^ T.rank) :
    (hermitianConjugate T).diagonals x =
      ⟨(T.diagonals (transposeIndex T.rank x)).shape, fun n => conj ((T.diagonals (transposeIndex T.rank x)).val n)⟩ := by
  unfold hermitianConjugate
  simp only
  rw [foldl_update T.rank (fun ind => ⟨(T.diagonals ind).shape, fun n => conj ((T.diagonals ind).val n)⟩) _ _ le_rfl hx,
    if_pos (transposeIndex_lt hx)]

theorem onDiag_τ {δ k i j : ℕ} (h : δ < 3) : OnDiag (τ δ) k i j ↔ OnDiag δ k j i := by
  interval_cases δ <;> simp [OnDiag, τ]; exact eq_comm

theorem onDiags_τ {ds : List ℕ} (h : ∀ δ ∈ ds, δ < 3) (ks : List ℕ) (i j : NIdx) : OnDiags (ds.map τ) ks i j ↔ OnDiags ds ks j i := by
  induction ds generalizing ks i j with
  | nil => cases ks <;> cases i <;> cases j <;> simp [OnDiags]
  | cons δ ds ih =>
    cases ks with
    | nil => simp [OnDiags]
    | cons k ks =>
      cases i with
      | nil => cases j <;> simp [OnDiags]
      | cons a i =>
        cases j with
        | nil => simp [OnDiags]
        | cons b j =>
          simp only [List.map_cons, OnDiags]
          rw [ih (fun x hx => h x (List.mem_cons_of_mem _ hx)), onDiag_τ (h δ (List.mem_cons_self ..))]

theorem posOns_τ {ds : List ℕ} (h : ∀ δ ∈ ds, δ < 3) {ks : List ℕ} {i j : NIdx} (ho : OnDiags ds ks j i) :
    posOns (ds.map τ) i j = posOns ds j i := by
  induction ds generalizing ks i j with
  | nil => cases i <;> cases j <;> simp [posOns]
  | cons δ ds ih =>
    cases ks with
    | nil => simp [OnDiags] at ho
    | cons k ks =>
      cases i with
      | nil => cases j <;> simp [OnDiags] at ho
      | cons a i =>
        cases j with
        | nil => simp [OnDiags] at ho
        | cons b j =>
          simp only [OnDiags] at ho
          simp only [List.map_cons, posOns]
          rw [ih (fun x hx => h x (List.mem_cons_of_mem _ hx)) ho.2]
          congr 1
          have := h δ (List.mem_cons_self ..)
          have h1 := ho.1
          interval_cases δ <;> simp [posOn, τ, OnDiag] at *
          exact h1.symm

theorem entry_hc (T : Tri) (i j : NIdx) : entry (hermitianConjugate T) i j = conj (entry T j i) := by
  unfold entry
  have hr : (hermitianConjugate T).rank = T.rank := rfl
  have hd : (hermitianConjugate T).diffs = T.diffs := rfl
  rw [map_sum]
  refine Finset.sum_nbij' (transposeIndex T.rank) (transposeIndex T.rank) ?_ ?_ ?_ ?_ ?_
  · exact fun x hx => Finset.mem_range.2 (transposeIndex_lt (Finset.mem_range.1 hx))
  · exact fun x hx => Finset.mem_range.2 (transposeIndex_lt (Finset.mem_range.1 hx))
  · exact fun x hx => transposeIndex_transposeIndex (Finset.mem_range.1 hx)
  · exact fun x hx => transposeIndex_transposeIndex (Finset.mem_range.1 hx)
  · intro x hx
    rw [hr] at hx
    have hx := Finset.mem_range.1 hx
    rw [hc_diagonals T hx, hr, hd]
    simp only [Diag.size]
    have e := digits3_transposeIndex hx
    have ho : OnDiags (digits3 T.rank (transposeIndex T.rank x)) T.diffs j i ↔ OnDiags (digits3 T.rank x) T.diffs i j := by
      rw [e, onDiags_τ fun _ => digits3_lt]
    by_cases h₁ : OnDiags (digits3 T.rank x) T.diffs i j
    · have hp := posOns_τ (fun _ => digits3_lt) h₁
      rw [← e] at hp
      simp only [ho, h₁, and_true, hp]
      split_ifs <;> simp
    · simp [ho, h₁]

/-! ## Sum -/

theorem mergeDiffs_length {os ds M : List ℕ} (h : mergeDiffs os ds = some M) : M.length = ds.length := by
  induction ds generalizing os M with
  | nil => cases os <;> simp [mergeDiffs] at h <;> simp [← h]
  | cons d ds ih =>
    cases os with
    | nil => simp [mergeDiffs] at h; simp [← h]
    | cons o os =>
      simp only [mergeDiffs, Option.bind_eq_some_iff, Option.map_eq_some_iff] at h
      obtain ⟨x, _, M', h', rfl⟩ := h
      simp [ih h']

/-- The offsets agree along the axes with a nonzero digit. -/
def AgreeOn : List ℕ → List ℕ → List ℕ → Prop
  | δ :: ds, m :: ms, k :: ks => (δ ≠ 0 → m = k) ∧ AgreeOn ds ms ks
  | _, [], [] => True
  | [], _, _ => True
  | _, _, _ => False

theorem agreeOn_left {os ds M digs : List ℕ} (h : mergeDiffs os ds = some M) (hk : KPos ds digs) : AgreeOn digs M ds := by
  induction ds generalizing os M digs with
  | nil => cases os <;> simp [mergeDiffs] at h <;> subst h <;> cases digs <;> simp [AgreeOn]
  | cons d ds ih =>
    cases os with
    | nil =>
      simp [mergeDiffs] at h; subst h
      clear ih hk
      induction digs generalizing d ds with
      | nil => simp [AgreeOn]
      | cons δ digs ih' =>
        simp only [AgreeOn, implies_true, true_and]
        cases ds with
        | nil => cases digs <;> simp [AgreeOn]
        | cons d' ds => exact ih' d' ds
    | cons o os =>
      simp only [mergeDiffs, Option.bind_eq_some_iff, Option.map_eq_some_iff] at h
      obtain ⟨x, hx, M', h', rfl⟩ := h
      cases digs with
      | nil => simp [AgreeOn]
      | cons δ digs =>
        simp only [KPos] at hk
        refine ⟨fun hδ => ?_, ih h' hk.2⟩
        have := hk.1 hδ
        unfold mergeDiff at hx
        rw [if_neg this] at hx
        split_ifs at hx; simpa using hx.symm

theorem agreeOn_right {os ds M digs : List ℕ} (hl : os.length = ds.length) (h : mergeDiffs os ds = some M) (hk : KPos os digs) :
    AgreeOn digs M os := by
  induction ds generalizing os M digs with
  | nil =>
    obtain rfl : os = [] := by simpa using hl
    simp [mergeDiffs] at h; subst h; cases digs <;> simp [AgreeOn]
  | cons d ds ih =>
    cases os with
    | nil => simp at hl
    | cons o os =>
      simp only [mergeDiffs, Option.bind_eq_some_iff, Option.map_eq_some_iff] at h
      obtain ⟨x, hx, M', h', rfl⟩ := h
      cases digs with
      | nil => simp [AgreeOn]
      | cons δ digs =>
        simp only [KPos] at hk
        refine ⟨fun hδ => ?_, ih (by simpa using hl) h' hk.2⟩
        have := hk.1 hδ
        unfold mergeDiff at hx
        split_ifs at hx with h1 h2
        · simpa using hx.symm
        · have hx : d = x := by simpa using hx
          push Not at h2
          rw [← hx, h2 this]

theorem AgreeOn.onDiags {digs M ks : List ℕ} (h : AgreeOn digs M ks) (hl : M.length = ks.length) (i j : NIdx) :
    OnDiags digs M i j ↔ OnDiags digs ks i j := by
  induction digs generalizing M ks i j with
  | nil => cases M <;> cases ks <;> cases i <;> cases j <;> simp_all [OnDiags]
  | cons δ digs ih =>
    cases M with
    | nil =>
      obtain rfl : ks = [] := by simpa using hl.symm
      rfl
    | cons m M =>
      obtain ⟨k, ks, rfl⟩ : ∃ a b, ks = a :: b := by cases ks <;> simp_all
      cases i with
      | nil => simp [OnDiags]
      | cons a i =>
        cases j with
        | nil => simp [OnDiags]
        | cons b j =>
          simp only [OnDiags]
          rw [ih h.2 (by simpa using hl)]
          by_cases hδ : δ = 0
          · simp [OnDiag, hδ]
          · rw [h.1 hδ]

theorem AgreeOn.diagShape {digs M ks : List ℕ} (h : AgreeOn digs M ks) (hl : M.length = ks.length) (Ns : List ℕ) :
    diagShape Ns M digs = diagShape Ns ks digs := by
  induction digs generalizing M ks Ns with
  | nil => cases M <;> cases ks <;> cases Ns <;> simp [Spec.diagShape]
  | cons δ digs ih =>
    cases M with
    | nil =>
      obtain rfl : ks = [] := by simpa using hl.symm
      rfl
    | cons m M =>
      obtain ⟨k, ks, rfl⟩ : ∃ a b, ks = a :: b := by cases ks <;> simp_all
      cases Ns with
      | nil => simp [Spec.diagShape]
      | cons N Ns =>
        simp only [Spec.diagShape]
        rw [ih h.2 (by simpa using hl)]
        by_cases hδ : δ = 0
        · simp [hδ]
        · rw [h.1 hδ]

theorem AgreeOn.kpos {digs M ks : List ℕ} (h : AgreeOn digs M ks) (hl : M.length = ks.length) (hk : KPos ks digs) : KPos M digs := by
  induction digs generalizing M ks with
  | nil => cases M <;> simp [KPos]
  | cons δ digs ih =>
    cases M with
    | nil => simp [KPos]
    | cons m M =>
      obtain ⟨k, ks, rfl⟩ : ∃ a b, ks = a :: b := by cases ks <;> simp_all
      refine ⟨fun hδ => ?_, ih h.2 (by simpa using hl) hk.2⟩
      rw [h.1 hδ]; exact hk.1 hδ

theorem mergeAll_ok {f : Diag → Diag → Outcome Diag} {src dst R : ℕ → Diag} {n : ℕ} (h : mergeAll f src dst n = .ok R) :
    (∀ m < n, f (src m) (dst m) = .ok (R m)) ∧ ∀ m, n ≤ m → R m = dst m := by
  induction n generalizing R with
  | zero =>
    simp only [mergeAll, Outcome.ok.injEq] at h
    subst h; simp
  | succ n ih =>
    rw [mergeAll] at h
    cases hm : mergeAll f src dst n with
    | throw => rw [hm] at h; simp [Outcome.bind] at h
    | undef => rw [hm] at h; simp [Outcome.bind] at h
    | ok R' =>
      rw [hm] at h
      simp only [Outcome.bind] at h
      cases hf : f (src n) (dst n) with
      | throw => rw [hf] at h; simp at h
      | undef => rw [hf] at h; simp at h
      | ok d =>
        rw [hf] at h
        simp only [Outcome.ok.injEq] at h
        subst h
        obtain ⟨h₁, h₂⟩ := ih hm
        refine ⟨fun m hm' => ?_, fun m hm' => ?_⟩
        · by_cases e : m = n
          · subst e; simpa using hf
          · rw [Function.update_of_ne e]; exact h₁ m (by omega)
        · rw [Function.update_of_ne (by omega)]; exact h₂ m (by omega)

theorem mergeAll_of_ok {f : Diag → Diag → Outcome Diag} {src dst : ℕ → Diag} {n : ℕ} (h : ∀ m < n, ∃ d, f (src m) (dst m) = .ok d) :
    ∃ R, mergeAll f src dst n = .ok R := by
  induction n with
  | zero => exact ⟨_, rfl⟩
  | succ n ih =>
    obtain ⟨R, hR⟩ := ih fun m hm => h m (by omega)
    obtain ⟨d, hd⟩ := h n (by omega)
    exact ⟨_, by rw [mergeAll, hR, Outcome.bind, hd, Outcome.bind]⟩

theorem mergeDiag_ok {s d R : Diag} (h : mergeDiag s d = .ok R) :
    (s.size = 0 ∧ R = d) ∨ (s.size ≠ 0 ∧ d.size = 0 ∧ R = s) ∨
      (s.size ≠ 0 ∧ d.size ≠ 0 ∧ d.shape = s.shape ∧ R = ⟨d.shape, fun n => d.val n + s.val n⟩) := by
  unfold mergeDiag at h
  split_ifs at h with h₁ h₂ h₃
  all_goals injection h with h
  · exact Or.inr (Or.inl ⟨h₁, h₂, h.symm⟩)
  · exact Or.inr (Or.inr ⟨h₁, h₂, h₃, h.symm⟩)
  · exact Or.inl ⟨by simpa using h₁, h.symm⟩

theorem add_ok {T S R : Tri} (h : add T S = .ok R) :
    R.rank = T.rank ∧ R.dims = T.dims ∧ R.time = T.time ∧ mergeDiffs S.diffs T.diffs = some R.diffs ∧
      (∀ m < 3 ^ T.rank, mergeDiag (S.diagonals m) (T.diagonals m) = .ok (R.diagonals m)) ∧
      (∀ m < 3 ^ T.rank, mergeFreq (S.freqs m) (T.freqs m) = .ok (R.freqs m)) := by
  unfold add at h
  cases hd : mergeDiffs S.diffs T.diffs with
  | none => rw [hd] at h; simp at h
  | some M =>
    rw [hd] at h
    simp only at h
    cases h₁ : mergeAll mergeDiag S.diagonals T.diagonals (3 ^ T.rank) with
    | throw => rw [h₁] at h; simp [Outcome.bind] at h
    | undef => rw [h₁] at h; simp [Outcome.bind] at h
    | ok D =>
      rw [h₁] at h
      simp only [Outcome.bind] at h
      cases h₂ : mergeAll mergeFreq S.freqs T.freqs (3 ^ T.rank) with
      | throw => rw [h₂] at h; simp at h
      | undef => rw [h₂] at h; simp at h
      | ok F =>
        rw [h₂] at h
        simp only [Outcome.ok.injEq] at h
        subst h
        exact ⟨rfl, rfl, rfl, rfl, (mergeAll_ok h₁).1, (mergeAll_ok h₂).1⟩

theorem entry_add {T S R : Tri} (hT : WF T) (hS : WF S) (hr : S.rank = T.rank) (h : add T S = .ok R) (i j : NIdx) :
    entry R i j = entry T i j + entry S i j := by
  obtain ⟨e₁, _, _, e₂, e₃, _⟩ := add_ok h
  have hlS : S.diffs.length = T.diffs.length := by rw [hS.diffs, hT.diffs, hr]
  have hl := mergeDiffs_length e₂
  unfold entry
  rw [e₁, hr, ← Finset.sum_add_distrib]
  refine Finset.sum_congr rfl fun x hx => ?_
  have hx := Finset.mem_range.1 hx
  have hTo : (T.diagonals x).size ≠ 0 → (OnDiags (digits3 T.rank x) R.diffs i j ↔ OnDiags (digits3 T.rank x) T.diffs i j) := fun hs =>
    (agreeOn_left e₂ (hT.kpos x hx hs)).onDiags hl i j
  have hSo : (S.diagonals x).size ≠ 0 → (OnDiags (digits3 T.rank x) R.diffs i j ↔ OnDiags (digits3 T.rank x) S.diffs i j) := fun hs => by
    have := hS.kpos x (by rw [hr]; exact hx) hs
    rw [hr] at this
    exact (agreeOn_right hlS e₂ this).onDiags (by omega) i j
  rcases mergeDiag_ok (e₃ x hx) with ⟨s₁, e⟩ | ⟨s₁, s₂, e⟩ | ⟨s₁, s₂, _, e⟩
  · rw [e]
    by_cases hs : (T.diagonals x).size ≠ 0
    · simp [s₁, hs, hTo hs]
    · simp [s₁, hs]
  · rw [e]
    simp [s₁, s₂, hSo s₁]
  · rw [e]
    have : Diag.size ⟨(T.diagonals x).shape, fun n => (T.diagonals x).val n + (S.diagonals x).val n⟩ ≠ 0 := s₂
    have a₁ := hTo s₂
    have a₂ := hSo s₁
    by_cases o : OnDiags (digits3 T.rank x) R.diffs i j
    · have b₁ := a₁.1 o
      have b₂ := a₂.1 o
      simp [this, s₁, s₂, o, b₁, b₂]
    · have b₁ : ¬ OnDiags (digits3 T.rank x) T.diffs i j := fun hh => o (a₁.2 hh)
      have b₂ : ¬ OnDiags (digits3 T.rank x) S.diffs i j := fun hh => o (a₂.2 hh)
      simp [o, b₁, b₂]

theorem add_wf {T S R : Tri} (hT : WF T) (hS : WF S) (hr : S.rank = T.rank) (hd : S.dims = T.dims) (h : add T S = .ok R) : WF R := by
  obtain ⟨e₁, e₀, _, e₂, e₃, _⟩ := add_ok h
  have hlS : S.diffs.length = T.diffs.length := by rw [hS.diffs, hT.diffs, hr]
  have hl := mergeDiffs_length e₂
  have hTs := fun x hx hs => (agreeOn_left (digs := digits3 T.rank x) e₂ (hT.kpos x hx hs))
  have hSs : ∀ x, x < 3 ^ T.rank → (S.diagonals x).size ≠ 0 → AgreeOn (digits3 T.rank x) R.diffs S.diffs := fun x hx hs => by
    have := hS.kpos x (by rw [hr]; exact hx) hs
    rw [hr] at this
    exact agreeOn_right hlS e₂ this
  refine ⟨by rw [e₀, e₁, hT.dims], by rw [hl, hT.diffs, e₁], ?_, ?_⟩
  all_goals
    intro x hx
    rw [e₁] at hx
    rw [e₁]
    try rw [e₀]
    intro hsz
    rcases mergeDiag_ok (e₃ x hx) with ⟨s₁, e⟩ | ⟨s₁, s₂, e⟩ | ⟨s₁, s₂, _, e⟩
  · rw [e] at hsz ⊢
    rw [(hTs x hx hsz).diagShape hl]; exact hT.shape x hx hsz
  · rw [e] at hsz ⊢
    rw [(hSs x hx hsz).diagShape (by omega), ← hd, ← hr]; exact hS.shape x (by rw [hr]; exact hx) hsz
  · rw [e]
    rw [(hTs x hx s₂).diagShape hl]; exact hT.shape x hx s₂
  · rw [e] at hsz
    exact (hTs x hx hsz).kpos hl (hT.kpos x hx hsz)
  · rw [e] at hsz
    refine (hSs x hx hsz).kpos (by omega) ?_
    rw [← hr]; exact hS.kpos x (by rw [hr]; exact hx) hsz
  · exact (hTs x hx s₂).kpos hl (hT.kpos x hx s₂)

end CppQED.Tridiag
