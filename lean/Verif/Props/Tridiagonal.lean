import Verif.Lemmas.TridiagonalAlg

/-!
# Properties C15–C18: `quantumoperator::Tridiagonal`

`Spec.entry T i j` is the matrix element of the represented operator (sum over the stored diagonals on which `(i,j)` lies).
-/

namespace CppQED.Tridiag
open CppQED.Spec ComplexConjugate

/-! ## C15 -/

/-- **C15.** `apply(psi,dpsidt)` adds to `dpsidt` the product of the represented matrix with `psi`, for every rank, dimensions, offsets and
diagonals. -/
theorem apply_eq_matrix (T : Tri) (h₁ : T.dims.length = T.rank) (h₂ : T.diffs.length = T.rank) (psi dpsidt : NIdx → ℂ) (i : NIdx)
    (hi : i ∈ natBox T.dims) : apply T psi dpsidt i = dpsidt i + ∑ j ∈ natBox T.dims, entry T i j * psi j :=
  apply_eq T h₁ h₂ psi dpsidt i hi

/-- **C15.** `apply` leaves no trace outside of the array `dpsidt`. -/
theorem apply_outside (T : Tri) (h₁ : T.dims.length = T.rank) (h₂ : T.diffs.length = T.rank) (psi dpsidt : NIdx → ℂ) (i : NIdx)
    (hi : i ∉ natBox T.dims) : apply T psi dpsidt i = dpsidt i := by
  rw [apply, doApply_eq, Finset.sum_eq_zero, add_zero]
  intro x _
  rw [term, if_neg]
  rintro ⟨-, h⟩
  apply hi
  clear hi
  simp only [List.nil_append] at h
  have hl : (digits3 T.rank x).length = T.dims.length := by rw [digits3_length, h₁]
  have hk : T.diffs.length = T.dims.length := by rw [h₁, h₂]
  revert h hl hk
  generalize digits3 T.rank x = ds
  generalize T.dims = dims
  generalize T.diffs = diffs
  intro h hl hk
  rw [mem_natBox]
  induction dims generalizing diffs ds i with
  | nil =>
    obtain rfl : diffs = [] := by simpa using hk
    obtain rfl : ds = [] := by simpa using hl
    cases i <;> simp_all [rangesAt, inRanges]
  | cons N dims ih =>
    obtain ⟨k, diffs, rfl⟩ : ∃ k ks, diffs = k :: ks := by cases diffs <;> simp_all
    obtain ⟨δ, ds, rfl⟩ : ∃ k ks, ds = k :: ks := by cases ds <;> simp_all
    cases i with
    | nil => simp [rangesAt, inRanges] at h
    | cons a i =>
      simp only [rangesAt, List.map_cons, List.zip_cons_cons, List.zipWith_cons_cons, inRanges, Bool.and_eq_true, decide_eq_true_eq] at h
      refine List.Forall₂.cons ?_ (ih i ds diffs h.2 (by simpa using hl) (by simpa using hk))
      have := h.1
      generalize dD δ = e at this
      match e with
      | 0 => simp [range3] at this; omega
      | 1 => simp [range3] at this; omega
      | n + 2 => simp [range3] at this; omega

/-- **C15.** The unary constructor accepts exactly the consistent sets of diagonals: mutually compatible lengths and a nonzero offset if there
is an off-diagonal. (Sizes are those of real arrays, i.e., below 2^63.) -/
theorem unary_throws_iff (zero minus plus : Diag) (k : ℕ) (toFreqs : Bool) (hz : zero.size < 2 ^ 63) (hm : minus.size < 2 ^ 63)
    (hp : plus.size < 2 ^ 63) (hk : k < 2 ^ 63) :
    unary zero k minus plus toFreqs ≠ .throw ↔
      (zero.size ≠ 0 → minus.size ≠ 0 → zero.size = minus.size + k) ∧ (zero.size ≠ 0 → plus.size ≠ 0 → zero.size = plus.size + k) ∧
      (minus.size ≠ 0 → plus.size ≠ 0 → minus.size = plus.size) ∧ (minus.size ≠ 0 ∨ plus.size ≠ 0 → k ≠ 0) :=
  unary_eq hz hm hp hk toFreqs

/-- **C15.** The matrix of a unary `Tridiagonal`: `zero` on the main, `minus` on the `k`-th lower, `plus` on the `k`-th upper diagonal. -/
theorem unary_entry {zero minus plus : Diag} {k : ℕ} {T : Tri} (h : unary zero k minus plus false = .ok T) (i j : ℕ) :
    entry T [i] [j] = (if zero.size ≠ 0 ∧ i = j then zero.val [i] else 0) + (if minus.size ≠ 0 ∧ i = j + k then minus.val [j] else 0) +
      (if plus.size ≠ 0 ∧ j = i + k then plus.val [i] else 0) := by
  have hT := unary_ok h
  rw [entry_unary_of (k := k) (by rw [hT]) (by rw [hT])]
  simp [hT]

/-- **C15.** A successfully constructed unary `Tridiagonal` is consistent, and its dimension is the length of the main diagonal if there is one.
(An offset beyond the main diagonal, without any off-diagonals, is pathological: the constructor would take the dimension to be `k`.) -/
theorem unary_wf {zero minus plus : Diag} {k nz nm np : ℕ} {T : Tri} (hz : zero.shape = [nz]) (hm : minus.shape = [nm]) (hp : plus.shape = [np])
    (bz : nz < 2 ^ 63) (bm : nm < 2 ^ 63) (bp : np < 2 ^ 63) (bk : k < 2 ^ 63) (hk : nm = 0 → np = 0 → k ≤ nz)
    (h : unary zero k minus plus false = .ok T) : WF T ∧ (nz ≠ 0 → T.dims = [nz]) := by
  have sz : zero.size = nz := by simp [Diag.size, hz]
  have sm : minus.size = nm := by simp [Diag.size, hm]
  have sp : plus.size = np := by simp [Diag.size, hp]
  have hc := (unary_throws_iff zero minus plus k false (by omega) (by omega) (by omega) bk).1 (by rw [h]; simp)
  rw [sz, sm, sp] at hc
  have hT := unary_ok h
  obtain ⟨c₁, c₂, c₃, c₄⟩ := hc
  have hx : ∀ x < 3 ^ 1, x = 0 ∨ x = 1 ∨ x = 2 := by intro x hx; omega
  refine ⟨⟨by rw [hT]; rfl, by rw [hT]; rfl, ?_, ?_⟩, ?_⟩
  · rw [hT]
    intro x hx' hs
    rcases hx x hx' with rfl | rfl | rfl
    · simp only [if_true, sz] at hs
      simp only [if_true, hz, sz, sm, sp, digits3_one 0 (by norm_num), diagShape, List.cons.injEq, and_true]
      omega
    · simp at hs
      rw [sm] at hs
      simp [hm, sz, sm, sp, digits3_one 1 (by norm_num), diagShape]
      omega
    · simp at hs
      rw [sp] at hs
      simp [hp, sz, sm, sp, digits3_one 2 (by norm_num), diagShape]
      omega
  · rw [hT]
    intro x hx' hs
    rcases hx x hx' with rfl | rfl | rfl
    · simp [digits3_one 0 (by norm_num), KPos]
    · simp at hs
      rw [sm] at hs
      simp [digits3_one 1 (by norm_num), KPos]
      omega
    · simp at hs
      rw [sp] at hs
      simp [digits3_one 2 (by norm_num), KPos]
      omega
  · intro hn
    rw [hT]
    simp only [sz, sm, sp, List.cons.injEq, and_true]
    omega

/-- The photon annihilation operator of dimension 3 (cf. `mode::aop`): upper diagonal `√1, √2`. -/
noncomputable def aop3 : Tri :=
  { rank := 1, dims := [3], diffs := [1], time := 0,
    diagonals := fun i => if i = 0 then Diag.empty 1 else if i = 1 then Diag.empty 1 else ⟨[2], fun n => (Real.sqrt (n.getD 0 0 + 1) : ℂ)⟩,
    freqs := fun _ => Diag.empty 1 }

example : unary (Diag.empty 1) 1 (Diag.empty 1) ⟨[2], fun n => (Real.sqrt (n.getD 0 0 + 1) : ℂ)⟩ false = .ok aop3 := by
  simp [unary, aop3, compatible, Diag.size, Diag.empty]

example (psi : NIdx → ℂ) : apply aop3 psi (fun _ => 0) [1] = (Real.sqrt 2 : ℂ) * psi [2] := by
  rw [apply_eq_matrix _ rfl rfl _ _ _ (by simp [aop3, mem_natBox])]
  rw [show aop3.dims = [3] from rfl, sum_natBox_cons]
  simp only [sum_natBox_nil, Finset.sum_range_succ, Finset.sum_range_zero, entry_unary_of (T := aop3) (k := 1) rfl rfl]
  simp [aop3, Diag.size, Diag.empty]
  left; norm_num

/-! ## C16 -/

/-- **C16.** The direct product is the tensor product: its matrix elements are the products of those of the factors. -/
theorem product_entry {t₁ t₂ P : Tri} (h : product t₁ t₂ = .ok P) (hd : t₁.diffs.length = t₁.rank) {i₁ j₁ : NIdx} (hi : i₁.length = t₁.rank)
    (hj : j₁.length = t₁.rank) (i₂ j₂ : NIdx) : entry P (i₁ ++ i₂) (j₁ ++ j₂) = entry t₁ i₁ j₁ * entry t₂ i₂ j₂ :=
  entry_product h hd hi hj i₂ j₂

/-- **C16.** The direct product has the dimensions and offsets of the factors side by side; it fails exactly if the two operators are
propagated to different times. -/
theorem product_shape (t₁ t₂ : Tri) :
    (t₁.time ≠ t₂.time ∧ product t₁ t₂ = .throw) ∨
    (t₁.time = t₂.time ∧ ∃ P, product t₁ t₂ = .ok P ∧ P.rank = t₁.rank + t₂.rank ∧ P.dims = t₁.dims ++ t₂.dims ∧
      P.diffs = t₁.diffs ++ t₂.diffs ∧ P.time = t₁.time) := by
  by_cases h : t₁.time = t₂.time
  · right
    refine ⟨h, ?_⟩
    rw [product, if_neg (by simpa using h)]
    exact ⟨_, rfl, rfl, rfl, rfl, rfl⟩
  · exact Or.inl ⟨h, by rw [product, if_pos h]⟩

/-- **C16.** Applied to a product state, the direct product gives the product of the two results. -/
theorem product_apply {t₁ t₂ P : Tri} (h : product t₁ t₂ = .ok P) (d₁ : t₁.dims.length = t₁.rank) (k₁ : t₁.diffs.length = t₁.rank)
    (d₂ : t₂.dims.length = t₂.rank) (k₂ : t₂.diffs.length = t₂.rank) (ψ₁ ψ₂ : NIdx → ℂ) (i₁ i₂ : NIdx) (hi₁ : i₁ ∈ natBox t₁.dims)
    (hi₂ : i₂ ∈ natBox t₂.dims) :
    apply P (fun j => ψ₁ (j.take t₁.rank) * ψ₂ (j.drop t₁.rank)) (fun _ => 0) (i₁ ++ i₂) =
      apply t₁ ψ₁ (fun _ => 0) i₁ * apply t₂ ψ₂ (fun _ => 0) i₂ := by
  obtain ⟨-, h'⟩ | ⟨-, P', h', r, d, k, -⟩ := product_shape t₁ t₂
  · rw [h] at h'; cases h'
  · rw [h] at h'; injection h' with h'; subst h'
    rw [apply_eq_matrix P (by rw [d, r]; simp [d₁, d₂]) (by rw [k, r]; simp [k₁, k₂]) _ _ _ (by rw [d]; exact natBox_append hi₁ hi₂),
      apply_eq_matrix t₁ d₁ k₁ _ _ _ hi₁, apply_eq_matrix t₂ d₂ k₂ _ _ _ hi₂, d, sum_natBox_append]
    simp only [zero_add]
    rw [Finset.sum_mul_sum]
    refine Finset.sum_congr rfl fun a ha => Finset.sum_congr rfl fun b _ => ?_
    have hl : a.length = t₁.rank := by rw [length_of_mem ha, d₁]
    rw [product_entry h k₁ (by rw [length_of_mem hi₁, d₁]) hl, List.take_left' hl, List.drop_left' hl]
    ring

/-- **C16.** The direct product of consistent operators is consistent. -/
theorem product_wf {t₁ t₂ P : Tri} (h : product t₁ t₂ = .ok P) (w₁ : WF t₁) (w₂ : WF t₂) : WF P := by
  unfold product at h
  split_ifs at h
  injection h with h
  have hsh : ∀ (a₁ a₂ b₁ b₂ c₁ c₂ : List ℕ), b₁.length = a₁.length → c₁.length = a₁.length →
      diagShape (a₁ ++ a₂) (b₁ ++ b₂) (c₁ ++ c₂) = diagShape a₁ b₁ c₁ ++ diagShape a₂ b₂ c₂ := by
    intro a₁
    induction a₁ with
    | nil => intro a₂ b₁ b₂ c₁ c₂ hb hc; simp at hb hc; subst hb hc; rfl
    | cons x a₁ ih =>
      intro a₂ b₁ b₂ c₁ c₂ hb hc
      obtain ⟨y, b₁, rfl⟩ : ∃ k ks, b₁ = k :: ks := by cases b₁ <;> simp_all
      obtain ⟨z, c₁, rfl⟩ : ∃ k ks, c₁ = k :: ks := by cases c₁ <;> simp_all
      simp only [List.cons_append, diagShape]
      rw [ih _ _ _ _ _ (by simpa using hb) (by simpa using hc)]
  have hkp : ∀ (b₁ b₂ c₁ c₂ : List ℕ), b₁.length = c₁.length → KPos b₁ c₁ → KPos b₂ c₂ → KPos (b₁ ++ b₂) (c₁ ++ c₂) := by
    intro b₁
    induction b₁ with
    | nil => intro b₂ c₁ c₂ hc h₁ h₂; cases c₁ <;> simp_all
    | cons x b₁ ih =>
      intro b₂ c₁ c₂ hc h₁ h₂
      obtain ⟨z, c₁, rfl⟩ : ∃ k ks, c₁ = k :: ks := by cases c₁ <;> simp_all
      exact ⟨h₁.1, ih _ _ _ (by simpa using hc) h₁.2 h₂⟩
  have hq : ∀ m < 3 ^ (t₁.rank + t₂.rank), m / 3 ^ t₂.rank < 3 ^ t₁.rank ∧ m % 3 ^ t₂.rank < 3 ^ t₂.rank := fun m hm =>
    ⟨by rw [Nat.div_lt_iff_lt_mul (by positivity), ← pow_add]; exact hm, Nat.mod_lt _ (by positivity)⟩
  subst h
  refine ⟨by simp [w₁.dims, w₂.dims], by simp [w₁.diffs, w₂.diffs], ?_, ?_⟩
  · intro m hm hs
    simp only [directDiagonals, direct_size, ne_eq, mul_eq_zero, not_or] at hs
    simp only [directDiagonals, direct]
    rw [digits3_append, hsh _ _ _ _ _ _ (by rw [w₁.dims, w₁.diffs]) (by rw [w₁.dims, digits3_length]), w₁.shape _ (hq m hm).1 hs.1,
      w₂.shape _ (hq m hm).2 hs.2]
  · intro m hm hs
    simp only [directDiagonals, direct_size, ne_eq, mul_eq_zero, not_or] at hs
    simp only
    rw [digits3_append]
    exact hkp _ _ _ _ (by rw [w₁.diffs, digits3_length]) (w₁.kpos _ (hq m hm).1 hs.1) (w₂.kpos _ (hq m hm).2 hs.2)

/-- `a ⊗ a` on two modes of dimension 3. -/
example : ∃ P, product aop3 aop3 = .ok P ∧ entry P [1, 0] [2, 1] = (Real.sqrt 2 : ℂ) := by
  obtain ⟨h, -⟩ | ⟨-, P, h, -⟩ := product_shape aop3 aop3
  · exact absurd rfl h
  · refine ⟨P, h, ?_⟩
    have := product_entry h rfl (i₁ := [1]) (j₁ := [2]) rfl rfl [0] [1]
    simp only [List.cons_append, List.nil_append] at this
    rw [this, entry_unary_of (T := aop3) (k := 1) rfl rfl, entry_unary_of (T := aop3) (k := 1) rfl rfl]
    simp [aop3, Diag.size, Diag.empty]
    norm_num

/-! ## C17 -/

/-- **C17.** `dagger()` represents the adjoint. -/
theorem dagger_entry (T : Tri) (i j : NIdx) : entry (hermitianConjugate T) i j = conj (entry T j i) := entry_hc T i j

/-- **C17.** `dagger()` applied twice gives back every stored diagonal, and it keeps everything else. -/
theorem dagger_dagger (T : Tri) (ind : ℕ) (h : ind < 3 ^ T.rank) :
    (hermitianConjugate (hermitianConjugate T)).diagonals ind = T.diagonals ind ∧
    (hermitianConjugate T).dims = T.dims ∧ (hermitianConjugate T).diffs = T.diffs ∧ (hermitianConjugate T).time = T.time ∧
    (hermitianConjugate T).freqs = T.freqs ∧ (hermitianConjugate T).rank = T.rank := by
  refine ⟨?_, rfl, rfl, rfl, rfl, rfl⟩
  rw [hc_diagonals _ (by exact h)]
  have hr : (hermitianConjugate T).rank = T.rank := rfl
  rw [hr, hc_diagonals _ (transposeIndex_lt h), transposeIndex_transposeIndex h]
  simp

/-- **C17.** `dagger()` keeps consistency. -/
theorem dagger_wf {T : Tri} (w : WF T) : WF (hermitianConjugate T) := by
  have hr : (hermitianConjugate T).rank = T.rank := rfl
  have hk : (hermitianConjugate T).diffs = T.diffs := rfl
  have hd : (hermitianConjugate T).dims = T.dims := rfl
  have hz : ∀ δ < 3, (τ δ = 0 ↔ δ = 0) := by intro δ hδ; interval_cases δ <;> simp [τ]
  have sh : ∀ (ds : List ℕ), (∀ δ ∈ ds, δ < 3) → ∀ Ns ks, diagShape Ns ks (ds.map τ) = diagShape Ns ks ds := by
    intro ds h
    induction ds with
    | nil => intro Ns ks; rfl
    | cons δ ds ih =>
      intro Ns ks
      cases Ns with
      | nil => rfl
      | cons N Ns =>
        cases ks with
        | nil => rfl
        | cons k ks =>
          simp only [List.map_cons, diagShape, hz δ (h δ (List.mem_cons_self ..))]
          rw [ih fun x hx => h x (List.mem_cons_of_mem _ hx)]
  have kp : ∀ (ds : List ℕ), (∀ δ ∈ ds, δ < 3) → ∀ ks, KPos ks (ds.map τ) ↔ KPos ks ds := by
    intro ds h
    induction ds with
    | nil => intro ks; cases ks <;> simp [KPos]
    | cons δ ds ih =>
      intro ks
      cases ks with
      | nil => simp [KPos]
      | cons k ks =>
        simp only [List.map_cons, KPos, ne_eq, hz δ (h δ (List.mem_cons_self ..))]
        rw [ih fun x hx => h x (List.mem_cons_of_mem _ hx)]
  refine ⟨w.dims, w.diffs, ?_, ?_⟩
  · intro x hx hs
    rw [hr] at hx ⊢
    rw [hd, hk]
    rw [hc_diagonals T hx] at hs ⊢
    simp only
    rw [w.shape _ (transposeIndex_lt hx) hs, digits3_transposeIndex hx, sh _ fun _ => digits3_lt]
  · intro x hx hs
    rw [hr] at hx ⊢
    rw [hk]
    rw [hc_diagonals T hx] at hs
    have := w.kpos _ (transposeIndex_lt hx) hs
    rwa [digits3_transposeIndex hx, kp _ fun _ => digits3_lt] at this

/-- **C17.** `*=` represents the scalar multiple. -/
theorem scale_entry (c : ℂ) (T : Tri) (i j : NIdx) : entry (scale c T) i j = c * entry T i j := by
  unfold entry
  rw [Finset.mul_sum]
  refine Finset.sum_congr rfl fun x _ => ?_
  simp only [scale, Diag.size]
  split_ifs <;> simp [mul_comm]

/-- **C17.** Unary minus represents the negative. -/
theorem neg_entry (T : Tri) (i j : NIdx) : entry (neg T) i j = - entry T i j := by
  unfold entry
  rw [← Finset.sum_neg_distrib]
  refine Finset.sum_congr rfl fun x _ => ?_
  by_cases h : (T.diagonals x).size ≠ 0 ∧ OnDiags (digits3 T.rank x) T.diffs i j
  · exact (if_pos h).trans (congrArg Neg.neg (if_pos h).symm)
  · exact (if_neg h).trans (neg_zero.symm.trans (congrArg Neg.neg (if_neg h).symm))

theorem neg_wf {T : Tri} (w : WF T) : WF (neg T) := ⟨w.dims, w.diffs, w.shape, w.kpos⟩
theorem scale_wf {T : Tri} (w : WF T) (c : ℂ) : WF (scale c T) := ⟨w.dims, w.diffs, w.shape, w.kpos⟩

/-- **C17.** For consistent operands of equal dimensions `+=`, when it does not throw, represents the matrix sum, and the result is
consistent. -/
theorem add_entry {T S R : Tri} (hT : WF T) (hS : WF S) (hr : S.rank = T.rank) (hd : S.dims = T.dims) (h : add T S = .ok R) :
    WF R ∧ R.dims = T.dims ∧ R.time = T.time ∧ ∀ i j, entry R i j = entry T i j + entry S i j :=
  ⟨add_wf hT hS hr hd h, (add_ok h).2.1, (add_ok h).2.2.1, fun i j => entry_add hT hS hr h i j⟩

theorem zeros_lt {sh : List ℕ} (h : sh.prod ≠ 0) : List.Forall₂ (· < ·) (List.replicate sh.length 0) sh := by
  induction sh with
  | nil => exact List.Forall₂.nil
  | cons n sh ih =>
    rw [List.prod_cons, mul_ne_zero_iff] at h
    exact List.Forall₂.cons (Nat.pos_of_ne_zero h.1) (ih h.2)

theorem mergeDiffs_none {os ds : List ℕ} (h : os.length = ds.length) :
    mergeDiffs os ds = none ↔ ∃ a < ds.length, ds.getD a 0 ≠ 0 ∧ os.getD a 0 ≠ 0 ∧ ds.getD a 0 ≠ os.getD a 0 := by
  induction ds generalizing os with
  | nil => obtain rfl : os = [] := by simpa using h
           simp [mergeDiffs]
  | cons d ds ih =>
    obtain ⟨o, os, rfl⟩ : ∃ a b, os = a :: b := by cases os <;> simp_all
    have ih := ih (os := os) (by simpa using h)
    have e : (∃ a < (d :: ds).length, (d :: ds).getD a 0 ≠ 0 ∧ (o :: os).getD a 0 ≠ 0 ∧ (d :: ds).getD a 0 ≠ (o :: os).getD a 0) ↔
        (d ≠ 0 ∧ o ≠ 0 ∧ d ≠ o) ∨ ∃ a < ds.length, ds.getD a 0 ≠ 0 ∧ os.getD a 0 ≠ 0 ∧ ds.getD a 0 ≠ os.getD a 0 := by
      constructor
      · rintro ⟨a, ha, hh⟩
        cases a with
        | zero => left; simpa using hh
        | succ a => right; exact ⟨a, by simpa using ha, by simpa using hh⟩
      · rintro (hh | ⟨a, ha, hh⟩)
        · exact ⟨0, by simp, by simpa using hh⟩
        · exact ⟨a + 1, by simpa using ha, by simpa using hh⟩
    rw [e, ← ih]
    rw [mergeDiffs, mergeDiff]
    by_cases hd : d = 0
    · simp [hd]
    · by_cases ho : o ≠ 0 ∧ d ≠ o
      · simp [hd, ho]
      · have : ¬ (d ≠ 0 ∧ o ≠ 0 ∧ d ≠ o) := by tauto
        simp [hd, ho]

/-- **C56, partial.** `+=` throws if the offsets of the operands differ along an axis where both have one. What is missing: the rejection of
operands of different dimensions or frequencies, which is false, cf. `add_accepts_different_dimensions` and
`add_accepts_different_frequencies`. -/
theorem add_rejects_partial {T S : Tri} (h : S.diffs.length = T.diffs.length) (a : ℕ) (ha : a < T.diffs.length) (h₁ : T.diffs.getD a 0 ≠ 0)
    (h₂ : S.diffs.getD a 0 ≠ 0) (h₃ : T.diffs.getD a 0 ≠ S.diffs.getD a 0) : add T S = .throw := by
  unfold add
  rw [(mergeDiffs_none h).2 ⟨a, ha, h₁, h₂, h₃⟩]

/-- **C17.** `+=` succeeds for consistent operands of equal dimensions whose offsets are not in conflict and whose frequencies agree where both
have them. -/
theorem add_succeeds {T S : Tri} (hT : WF T) (hS : WF S) (hr : S.rank = T.rank) (hd : S.dims = T.dims)
    (ho : ∀ a < T.diffs.length, T.diffs.getD a 0 = 0 ∨ S.diffs.getD a 0 = 0 ∨ T.diffs.getD a 0 = S.diffs.getD a 0)
    (hf : ∀ x < 3 ^ T.rank, (T.freqs x).size ≠ 0 → (S.freqs x).size ≠ 0 →
      (T.freqs x).shape = (S.freqs x).shape ∧ ∀ n, List.Forall₂ (· < ·) n (T.freqs x).shape → (T.freqs x).val n = (S.freqs x).val n) :
    ∃ R, add T S = .ok R := by
  have hlS : S.diffs.length = T.diffs.length := by rw [hS.diffs, hT.diffs, hr]
  cases hM : mergeDiffs S.diffs T.diffs with
  | none =>
    obtain ⟨a, ha, h₁, h₂, h₃⟩ := (mergeDiffs_none hlS).1 hM
    rcases ho a ha with h | h | h <;> contradiction
  | some M =>
    have hl := mergeDiffs_length hM
    obtain ⟨D, hD⟩ := mergeAll_of_ok (f := mergeDiag) (src := S.diagonals) (dst := T.diagonals) (n := 3 ^ T.rank) (by
      intro x hx
      unfold mergeDiag
      split_ifs with h₁ h₂ h₃
      · exact ⟨_, rfl⟩
      · exact ⟨_, rfl⟩
      · exfalso
        apply h₃
        have hx' : x < 3 ^ S.rank := by rw [hr]; exact hx
        rw [hT.shape x hx h₂, hS.shape x hx' h₁, hd, hr]
        have k₂ := hS.kpos x hx' h₁
        rw [hr] at k₂
        rw [← (agreeOn_left hM (hT.kpos x hx h₂)).diagShape hl, ← (agreeOn_right hlS hM k₂).diagShape (by omega)]
      · exact ⟨_, rfl⟩)
    obtain ⟨F, hF⟩ := mergeAll_of_ok (f := mergeFreq) (src := S.freqs) (dst := T.freqs) (n := 3 ^ T.rank) (by
      intro x hx
      unfold mergeFreq
      split_ifs with h₁ h₂ h₃ h₄
      · exact absurd (hf x hx h₂ h₁).1 h₃
      · exfalso
        have hz := zeros_lt (sh := (T.freqs x).shape) h₂
        exact h₄ _ hz ((hf x hx h₂ h₁).2 _ hz)
      · exact ⟨_, rfl⟩
      · exact ⟨_, rfl⟩
      · exact ⟨_, rfl⟩)
    exact ⟨_, by unfold add; rw [hM]; simp only; rw [hD, Outcome.bind, hF, Outcome.bind]⟩

/-- **C56, negation.** `+=` accepts an operand of a different dimension: a main diagonal of length 2 and an off-diagonal of a three-dimensional
operator are merged without complaint, leaving an inconsistent object of dimension 2. -/
theorem add_accepts_different_dimensions :
    ∃ T S R : Tri, WF T ∧ WF S ∧ T.dims = [2] ∧ S.dims = [3] ∧ add T S = .ok R ∧ R.dims = [2] ∧ ¬ WF R := by
  let T : Tri := ⟨1, [2], [0], 0, fun i => if i = 0 then ⟨[2], fun _ => 1⟩ else Diag.empty 1, fun _ => Diag.empty 1⟩
  let S : Tri := ⟨1, [3], [1], 0, fun i => if i = 1 then ⟨[2], fun _ => 1⟩ else Diag.empty 1, fun _ => Diag.empty 1⟩
  have hx : ∀ x < 3 ^ 1, x = 0 ∨ x = 1 ∨ x = 2 := by intro x hx; omega
  have wT : WF T := by
    refine ⟨rfl, rfl, ?_, ?_⟩ <;> intro x hx' <;> rcases hx x hx' with rfl | rfl | rfl <;>
      simp [T, Diag.size, Diag.empty, digits3, diagShape, KPos]
  have wS : WF S := by
    refine ⟨rfl, rfl, ?_, ?_⟩ <;> intro x hx' <;> rcases hx x hx' with rfl | rfl | rfl <;>
      simp [S, Diag.size, Diag.empty, digits3, diagShape, KPos]
  obtain ⟨D, hD⟩ := mergeAll_of_ok (f := mergeDiag) (src := S.diagonals) (dst := T.diagonals) (n := 3 ^ T.rank) (by
    intro x hx'
    rcases hx x hx' with rfl | rfl | rfl <;> simp [T, S, mergeDiag, Diag.size, Diag.empty])
  obtain ⟨F, hF⟩ := mergeAll_of_ok (f := mergeFreq) (src := S.freqs) (dst := T.freqs) (n := 3 ^ T.rank) (by
    intro x hx'
    simp [T, S, mergeFreq, Diag.size, Diag.empty])
  have hadd : add T S = .ok ⟨1, [2], [1], 0, D, F⟩ := by
    unfold add
    have : mergeDiffs S.diffs T.diffs = some [1] := by simp [T, S, mergeDiffs, mergeDiff]
    rw [this]; simp only; rw [hD, Outcome.bind, hF, Outcome.bind]
  refine ⟨T, S, _, wT, wS, rfl, rfl, hadd, rfl, fun w => ?_⟩
  have h := (mergeAll_ok hD).1 1 (by norm_num [T])
  have hD1 : D 1 = ⟨[2], fun _ => 1⟩ := by
    have : mergeDiag (S.diagonals 1) (T.diagonals 1) = .ok ⟨[2], fun _ => 1⟩ := by simp [T, S, mergeDiag, Diag.size, Diag.empty]
    rw [this] at h; injection h with h; exact h.symm
  have := w.shape 1 (by norm_num) (by simp [hD1, Diag.size])
  simp [hD1, digits3, diagShape] at this

/-- **C56, negation.** `+=` accepts an operand with different frequencies, as long as a single element coincides. -/
theorem add_accepts_different_frequencies :
    ∃ T S R : Tri, WF T ∧ WF S ∧ T.dims = S.dims ∧ (T.freqs 1).size ≠ 0 ∧ (T.freqs 1).shape = (S.freqs 1).shape ∧
      (T.freqs 1).val [1] ≠ (S.freqs 1).val [1] ∧ add T S = .ok R := by
  let fT : ℕ → Diag := fun i => if i = 1 then ⟨[2], fun n => if n = [1] then 1 else 0⟩ else Diag.empty 1
  let fS : ℕ → Diag := fun i => if i = 1 then ⟨[2], fun n => if n = [1] then 2 else 0⟩ else Diag.empty 1
  let T : Tri := ⟨1, [3], [1], 0, fun i => if i = 1 then ⟨[2], fun _ => 1⟩ else Diag.empty 1, fT⟩
  let S : Tri := ⟨1, [3], [1], 0, fun i => if i = 1 then ⟨[2], fun _ => 1⟩ else Diag.empty 1, fS⟩
  have hx : ∀ x < 3 ^ 1, x = 0 ∨ x = 1 ∨ x = 2 := by intro x hx; omega
  have wT : WF T := by
    refine ⟨rfl, rfl, ?_, ?_⟩ <;> intro x hx' <;> rcases hx x hx' with rfl | rfl | rfl <;>
      simp [T, Diag.size, Diag.empty, digits3, diagShape, KPos]
  have wS : WF S := by
    refine ⟨rfl, rfl, ?_, ?_⟩ <;> intro x hx' <;> rcases hx x hx' with rfl | rfl | rfl <;>
      simp [S, Diag.size, Diag.empty, digits3, diagShape, KPos]
  obtain ⟨D, hD⟩ := mergeAll_of_ok (f := mergeDiag) (src := S.diagonals) (dst := T.diagonals) (n := 3 ^ T.rank) (by
    intro x hx'
    rcases hx x hx' with rfl | rfl | rfl <;> simp [T, S, mergeDiag, Diag.size, Diag.empty])
  obtain ⟨F, hF⟩ := mergeAll_of_ok (f := mergeFreq) (src := S.freqs) (dst := T.freqs) (n := 3 ^ T.rank) (by
    intro x hx'
    rcases hx x hx' with rfl | rfl | rfl
    · simp [T, S, fT, fS, mergeFreq, Diag.size, Diag.empty]
    · refine ⟨fS 1, ?_⟩
      unfold mergeFreq
      rw [if_pos (by simp [S, fS, Diag.size]), if_pos (by simp [T, fT, Diag.size]), if_neg (by simp [T, S, fT, fS]), if_neg]
      intro hall
      exact hall [0] (by simp [T, fT]) (by simp [T, S, fT, fS])
    · simp [T, S, fT, fS, mergeFreq, Diag.size, Diag.empty])
  have hadd : add T S = .ok ⟨1, [3], [1], 0, D, F⟩ := by
    unfold add
    have : mergeDiffs S.diffs T.diffs = some [1] := by simp [T, S, mergeDiffs, mergeDiff]
    rw [this]; simp only; rw [hD, Outcome.bind, hF, Outcome.bind]
  exact ⟨T, S, _, wT, wS, rfl, by simp [T, fT, Diag.size], by simp [T, S, fT, fS], by simp [T, S, fT, fS], hadd⟩

theorem hc_add_succeeds {T : Tri} (w : WF T) {S : Tri} (hw : WF S) (h₁ : S.rank = T.rank) (h₂ : S.dims = T.dims) (h₃ : S.diffs = T.diffs)
    (h₄ : S.freqs = T.freqs) : ∃ R, add T S = .ok R :=
  add_succeeds w hw h₁ h₂ (fun a _ => by rw [h₃]; simp) (fun x _ _ _ => by rw [h₄]; exact ⟨rfl, fun _ _ => rfl⟩)

/-- **C17.** `tridiagPlusHC` always succeeds on a consistent operator, gives `T+T†`, and that is Hermitian. -/
theorem plusHC_entry {T : Tri} (w : WF T) :
    ∃ R, plusHC T = .ok R ∧ WF R ∧ (∀ i j, entry R i j = entry T i j + conj (entry T j i)) ∧ ∀ i j, entry R i j = conj (entry R j i) := by
  obtain ⟨R, hR⟩ := hc_add_succeeds w (dagger_wf w) rfl rfl rfl rfl
  obtain ⟨wR, -, -, e⟩ := add_entry w (dagger_wf w) rfl rfl hR
  have e' : ∀ i j, entry R i j = entry T i j + conj (entry T j i) := fun i j => by rw [e, dagger_entry]
  exact ⟨R, hR, wR, e', fun i j => by rw [e', e', map_add, Complex.conj_conj, add_comm]⟩

/-- **C17.** `tridiagMinusHC` always succeeds on a consistent operator, gives `T-T†`, and that is anti-Hermitian. -/
theorem minusHC_entry {T : Tri} (w : WF T) :
    ∃ R, minusHC T = .ok R ∧ WF R ∧ (∀ i j, entry R i j = entry T i j - conj (entry T j i)) ∧ ∀ i j, entry R i j = - conj (entry R j i) := by
  obtain ⟨R, hR⟩ := hc_add_succeeds w (neg_wf (dagger_wf w)) rfl rfl rfl rfl
  obtain ⟨wR, -, -, e⟩ := add_entry w (neg_wf (dagger_wf w)) rfl rfl hR
  have e' : ∀ i j, entry R i j = entry T i j - conj (entry T j i) := fun i j => by rw [e, neg_entry, dagger_entry, sub_eq_add_neg]
  exact ⟨R, hR, wR, e', fun i j => by rw [e', e', map_sub, Complex.conj_conj, neg_sub]⟩

/-- The hypotheses are met by the annihilation operator. -/
theorem aop3_wf : WF aop3 := by
  have hx : ∀ x < 3 ^ 1, x = 0 ∨ x = 1 ∨ x = 2 := by intro x hx; omega
  refine ⟨rfl, rfl, ?_, ?_⟩ <;> intro x hx' <;> rcases hx x hx' with rfl | rfl | rfl <;>
    simp [aop3, Diag.size, Diag.empty, digits3, diagShape, KPos]

example : ∃ R, plusHC aop3 = .ok R ∧ entry R [1] [2] = (Real.sqrt 2 : ℂ) ∧ entry R [2] [1] = (Real.sqrt 2 : ℂ) := by
  obtain ⟨R, h, -, e, -⟩ := plusHC_entry aop3_wf
  refine ⟨R, h, ?_, ?_⟩ <;>
    · rw [e, entry_unary_of (T := aop3) (k := 1) rfl rfl, entry_unary_of (T := aop3) (k := 1) rfl rfl]
      simp [aop3, Diag.size, Diag.empty]
      norm_num

/-! ## C18 -/

/-- The unary `V` in the interaction picture defined by the diagonal propagator `U(t)=exp(-m t)`, i.e. `U(t)⁻¹ V U(t)`. -/
noncomputable def interactionPicture (m : ℕ → ℂ) (V : ℕ → ℕ → ℂ) (t : ℝ) (i j : ℕ) : ℂ :=
  (Complex.exp (-(m i * t)))⁻¹ * V i j * Complex.exp (-(m j * t))

/-- **C18.** After `furnishWithFreqs(m)`, `propagate(t)` gives the operator in the interaction picture defined by `U(t)=exp(-m t)`, for
every dimension, offset, time, main diagonal and operator. -/
theorem propagate_unary (T : Tri) (w : WF T) (hr : T.rank = 1) (N k : ℕ) (hN : T.dims = [N]) (hk : T.diffs = [k]) (ht : T.time = 0) (m : ℕ → ℂ)
    (t : ℝ) (i j : ℕ) :
    entry (propagate (furnishWithFreqs T m) t) [i] [j] = interactionPicture m (fun a b => entry T [a] [b]) t i j := by
  set F := furnishWithFreqs T m with hF
  have Fr : F.rank = 1 := by rw [hF, furnishWithFreqs]; split_ifs <;> exact hr
  have Fk : F.diffs = [k] := by rw [hF, furnishWithFreqs]; split_ifs <;> exact hk
  have Ft : F.time = 0 := by rw [hF, furnishWithFreqs]; split_ifs <;> exact ht
  have Fd : F.diagonals = T.diagonals := by rw [hF, furnishWithFreqs]; split_ifs <;> rfl
  have size_pos : ∀ x, x = 1 ∨ x = 2 → (T.diagonals x).size ≠ 0 → 0 < N - k := by
    intro x hx hs
    have h1 := w.shape x (by rw [hr]; omega) hs
    rw [hr, hN, hk, digits3_one x (by omega)] at h1
    have : (T.diagonals x).size = N - k := by
      rw [Diag.size, h1]
      rcases hx with rfl | rfl <;> simp [diagShape]
    omega
  have Ff : ∀ x, x = 1 ∨ x = 2 → (T.diagonals x).size ≠ 0 → (F.freqs x).size ≠ 0 ∧
      ∀ n, (F.freqs x).val [n] = if x = 1 then m (n + k) - m n else -(m (n + k) - m n) := by
    intro x hx hs
    have hp := size_pos x hx hs
    rw [hF, furnishWithFreqs, hN, hk]
    simp only [List.getD_cons_zero, hp, if_true]
    rcases hx with rfl | rfl
    · simp [Diag.size]; omega
    · simp [Diag.size]; omega
  rw [entry_unary_of (k := k) (by rw [propagate_rank, Fr]) (by rw [propagate_diffs, Fk]), propagate_size, propagate_size, propagate_size,
    propagate_diagonals, propagate_diagonals, propagate_diagonals, Fr, Fd, Ft]
  simp only [interactionPicture]
  rw [entry_unary_of (k := k) hr hk, mul_add, mul_add, add_mul, add_mul, ← Complex.exp_neg, neg_neg]
  congr 1
  · congr 1
    · have hz : ¬ (1 ≤ 0 ∧ 0 < 3 ^ 1 ∧ (T.diagonals 0).size ≠ 0 ∧ (F.freqs 0).size ≠ 0) := by simp
      rw [if_neg hz]
      by_cases h : (T.diagonals 0).size ≠ 0 ∧ i = j
      · rw [if_pos h, ← h.2, mul_comm, ← mul_assoc, ← Complex.exp_add, neg_add_cancel, Complex.exp_zero, one_mul]
      · rw [if_neg h]; simp
    · by_cases h : (T.diagonals 1).size ≠ 0 ∧ i = j + k
      · obtain ⟨f₁, f₂⟩ := Ff 1 (Or.inl rfl) h.1
        rw [if_pos h, if_pos h, if_pos ⟨le_rfl, by norm_num, h.1, f₁⟩]
        simp only [f₂ j, if_true]
        rw [h.2,
          mul_comm (Complex.exp _) ((T.diagonals 1).val [j]), mul_assoc, ← Complex.exp_add]
        congr 2
        push_cast; ring
      · rw [if_neg h, if_neg h]; simp
  · by_cases h : (T.diagonals 2).size ≠ 0 ∧ j = i + k
    · obtain ⟨f₁, f₂⟩ := Ff 2 (Or.inr rfl) h.1
      rw [if_pos h, if_pos h, if_pos ⟨by norm_num, by norm_num, h.1, f₁⟩]
      simp only [f₂ i, if_neg (show ¬ (2 = 1) by norm_num)]
      rw [h.2,
        mul_comm (Complex.exp _) ((T.diagonals 2).val [i]), mul_assoc, ← Complex.exp_add]
      congr 2
      push_cast; ring
    · rw [if_neg h, if_neg h]; simp

/-- **C18.** The result of a history of `propagate` calls depends only on the last time. -/
theorem propagate_history (T : Tri) (ts : List ℝ) (t : ℝ) : propagate (ts.foldl propagate T) t = propagate T t := by
  induction ts generalizing T with
  | nil => rfl
  | cons s ts ih => rw [List.foldl_cons, ih, propagate_propagate]

/-- **C18.** Returning to the starting time restores the operator exactly. -/
theorem propagate_return (T : Tri) (ts : List ℝ) : propagate (ts.foldl propagate T) T.time = T := by
  rw [propagate_history, propagate_self]

/-- **C57, partial.** A direct product propagates as the product of the propagated factors, *provided* that no stored diagonal of the product is
made of a diagonal with and another without frequencies. (Frequencies of the all-main diagonal are never set.) The full property is false, cf.
`product_loses_frequencies` and `product_propagate_wrong`. -/
theorem product_propagate_partial {t₁ t₂ P P' : Tri} (h : product t₁ t₂ = .ok P) (t : ℝ)
    (h' : product (propagate t₁ t) (propagate t₂ t) = .ok P') (f₁ : (t₁.freqs 0).size = 0) (f₂ : (t₂.freqs 0).size = 0)
    (hf : ∀ x < 3 ^ t₁.rank, ∀ y < 3 ^ t₂.rank, (t₁.diagonals x).size ≠ 0 → (t₂.diagonals y).size ≠ 0 →
      ((t₁.freqs x).size = 0 ↔ (t₂.freqs y).size = 0)) (hd : t₁.diffs.length = t₁.rank)
    {i₁ j₁ : NIdx} (hi : i₁.length = t₁.rank) (hj : j₁.length = t₁.rank) (i₂ j₂ : NIdx) :
    entry (propagate P t) (i₁ ++ i₂) (j₁ ++ j₂) = entry P' (i₁ ++ i₂) (j₁ ++ j₂) := by
  rw [product_entry h' (by rw [propagate_diffs, propagate_rank, hd]) (by rw [propagate_rank, hi]) (by rw [propagate_rank, hj])]
  have hP : t₁.time = t₂.time ∧ P = ⟨t₁.rank + t₂.rank, t₁.dims ++ t₂.dims, t₁.diffs ++ t₂.diffs, t₁.time,
      directDiagonals true t₁.rank (3 ^ t₂.rank) t₁.diagonals t₂.diagonals,
      directDiagonals false t₁.rank (3 ^ t₂.rank) t₁.freqs t₂.freqs⟩ := by
    unfold product at h
    split_ifs at h with hh
    injection h with h
    exact ⟨by simpa using hh, h.symm⟩
  obtain ⟨ht, hP⟩ := hP
  rw [entry, propagate_rank, propagate_diffs, entry, entry, propagate_rank, propagate_rank, propagate_diffs, propagate_diffs]
  have r : P.rank = t₁.rank + t₂.rank := by rw [hP]
  have k : P.diffs = t₁.diffs ++ t₂.diffs := by rw [hP]
  rw [r, k, pow_add, sum_range_mul', Finset.sum_mul_sum]
  refine Finset.sum_congr rfl fun x hx => Finset.sum_congr rfl fun y hy => ?_
  rw [Finset.mem_range] at hx hy
  have e₁ : (x * 3 ^ t₂.rank + y) / 3 ^ t₂.rank = x := by
    rw [mul_comm, Nat.mul_add_div (by positivity), Nat.div_eq_of_lt hy, Nat.add_zero]
  have e₂ : (x * 3 ^ t₂.rank + y) % 3 ^ t₂.rank = y := by
    rw [mul_comm, Nat.mul_add_mod, Nat.mod_eq_of_lt hy]
  have ho := onDiags_append (d₁ := digits3 t₁.rank x) (k₁ := t₁.diffs) (i₁ := i₁) (j₁ := j₁) (by rw [digits3_length, hd])
    (by rw [digits3_length, hi]) (by rw [digits3_length, hj]) (digits3 t₂.rank y) t₂.diffs i₂ j₂
  have hdP : P.diagonals (x * 3 ^ t₂.rank + y) = direct true t₁.rank (t₁.diagonals x) (t₂.diagonals y) := by
    rw [hP]; simp only [directDiagonals, e₁, e₂]
  have hfP : P.freqs (x * 3 ^ t₂.rank + y) = direct false t₁.rank (t₁.freqs x) (t₂.freqs y) := by
    rw [hP]; simp only [directDiagonals, e₁, e₂]
  have htP : P.time = t₁.time := by rw [hP]
  rw [digits3_append, e₁, e₂]
  have hsz : (P.diagonals (x * 3 ^ t₂.rank + y)).size = (t₁.diagonals x).size * (t₂.diagonals y).size := by rw [hdP, direct_size]
  have hfz : (P.freqs (x * 3 ^ t₂.rank + y)).size = (t₁.freqs x).size * (t₂.freqs y).size := by rw [hfP, direct_size]
  simp only [ho, propagate_size, hsz]
  rw [posOns_append (by rw [digits3_length, hi]) (by rw [digits3_length, hj])]
  by_cases s₁ : (t₁.diagonals x).size = 0
  · simp [s₁]
  by_cases s₂ : (t₂.diagonals y).size = 0
  · simp [s₂]
  by_cases o₁ : OnDiags (digits3 t₁.rank x) t₁.diffs i₁ j₁
  swap
  · simp [o₁]
  by_cases o₂ : OnDiags (digits3 t₂.rank y) t₂.diffs i₂ j₂
  swap
  · simp [o₂]
  have hl : (posOns (digits3 t₁.rank x) i₁ j₁).length = t₁.rank := by
    rw [posOns_length (by rw [digits3_length, hi]) (by rw [digits3_length, hj]), digits3_length]
  simp only [s₁, s₂, o₁, o₂, ne_eq, mul_eq_zero, or_self, not_false_eq_true, and_self, if_true]
  rw [propagate_diagonals, propagate_diagonals, propagate_diagonals, hsz, hfz, hdP, hfP, htP, r]
  simp only [s₁, s₂, ne_eq, mul_eq_zero, or_self, not_false_eq_true, true_and]
  have hff := hf x hx y hy s₁ s₂
  by_cases g₁ : (t₁.freqs x).size = 0
  · have g₂ := hff.1 g₁
    simp [g₁, g₂, direct, List.take_left' hl, List.drop_left' hl]
  · have g₂ : ¬ (t₂.freqs y).size = 0 := fun h => g₁ (hff.2 h)
    have x1 : 1 ≤ x := by
      by_contra hx0
      have : x = 0 := by omega
      rw [this] at g₁; exact g₁ f₁
    have y1 : 1 ≤ y := by
      by_contra hx0
      have : y = 0 := by omega
      rw [this] at g₂; exact g₂ f₂
    have z1 : 1 ≤ x * 3 ^ t₂.rank + y := by omega
    have z2 : x * 3 ^ t₂.rank + y < 3 ^ (t₁.rank + t₂.rank) := by
      rw [pow_add]
      calc x * 3 ^ t₂.rank + y < x * 3 ^ t₂.rank + 3 ^ t₂.rank := by omega
        _ = (x + 1) * 3 ^ t₂.rank := by ring
        _ ≤ _ := Nat.mul_le_mul_right _ (by omega)
    simp only [x1, y1, z1, z2, hx, hy, g₁, g₂, not_false_eq_true, and_self, or_self, if_true, direct, List.take_left' hl, List.drop_left' hl,
      Bool.false_eq_true, if_false]
    rw [mul_add, Complex.exp_add, ht]
    ring

/-- **C57, negation.** If one factor of a stored diagonal of a direct product has no frequencies (its main diagonal, or an operator of a system that
is not in interaction picture) then `propagate` never changes this diagonal of the product, whatever the frequencies of the other factor. -/
theorem product_loses_frequencies {t₁ t₂ P : Tri} (h : product t₁ t₂ = .ok P) (x y : ℕ) (hy : y < 3 ^ t₂.rank)
    (hf : (t₁.freqs x).size = 0 ∨ (t₂.freqs y).size = 0) (t : ℝ) :
    (propagate P t).diagonals (x * 3 ^ t₂.rank + y) = P.diagonals (x * 3 ^ t₂.rank + y) := by
  rw [propagate_diagonals, if_neg]
  rintro ⟨-, -, -, hs⟩
  apply hs
  have e₁ : (x * 3 ^ t₂.rank + y) / 3 ^ t₂.rank = x := by
    rw [mul_comm, Nat.mul_add_div (by positivity), Nat.div_eq_of_lt hy, Nat.add_zero]
  have e₂ : (x * 3 ^ t₂.rank + y) % 3 ^ t₂.rank = y := by
    rw [mul_comm, Nat.mul_add_mod, Nat.mod_eq_of_lt hy]
  unfold product at h
  split_ifs at h
  injection h with h
  subst h
  simp only [directDiagonals, e₁, e₂, direct_size]
  rcases hf with hf | hf <;> simp [hf]

/-- The number operator of dimension 2, without frequencies, as given by `mode::nop`. -/
noncomputable def nop2 : Tri :=
  { rank := 1, dims := [2], diffs := [0], time := 0,
    diagonals := fun i => if i = 0 then ⟨[2], fun n => (n.getD 0 0 : ℂ)⟩ else Diag.empty 1, freqs := fun _ => Diag.empty 1 }

/-- A lowering operator of dimension 2. -/
noncomputable def low2 : Tri :=
  { rank := 1, dims := [2], diffs := [1], time := 0,
    diagonals := fun i => if i = 2 then ⟨[1], fun _ => 1⟩ else Diag.empty 1, freqs := fun _ => Diag.empty 1 }

theorem low2_wf : WF low2 := by
  have hx : ∀ x < 3 ^ 1, x = 0 ∨ x = 1 ∨ x = 2 := by intro x hx; omega
  refine ⟨rfl, rfl, ?_, ?_⟩ <;> intro x hx' <;> rcases hx x hx' with rfl | rfl | rfl <;>
    simp [low2, Diag.size, Diag.empty, digits3, diagShape, KPos]

/-- **C57, negation, concretely.** `n ⊗ σ` with `σ` in the interaction picture `U=diag(1,exp(-i π t))` (as in the dispersive coupling of a
particle in interaction picture to a mode): at `t=1` the matrix element `(1,0),(1,1)` should be `-1`, but the program's is `1`. -/
theorem product_propagate_wrong :
    ∃ (m : ℕ → ℂ) (P : Tri), product nop2 (furnishWithFreqs low2 m) = .ok P ∧
      entry nop2 [1] [1] * interactionPicture m (fun a b => entry low2 [a] [b]) 1 0 1 = -1 ∧ entry (propagate P 1) [1, 0] [1, 1] = 1 := by
  let m : ℕ → ℂ := fun n => n * (Real.pi * Complex.I)
  obtain ⟨h, -⟩ | ⟨-, P, h, hr, hdim, hdf, -⟩ := product_shape nop2 (furnishWithFreqs low2 m)
  · exfalso; apply h; simp [nop2, furnishWithFreqs, low2]
  have en : entry nop2 [1] [1] = 1 := by
    rw [entry_unary_of (T := nop2) (k := 0) rfl rfl]
    simp [nop2, Diag.size, Diag.empty]
  have el : entry low2 [0] [1] = 1 := by
    rw [entry_unary_of (T := low2) (k := 1) rfl rfl]
    simp [low2, Diag.size, Diag.empty]
  have frk : (furnishWithFreqs low2 m).rank = 1 := by simp [furnishWithFreqs, low2]
  have fdg : (furnishWithFreqs low2 m).diagonals = low2.diagonals := by simp [furnishWithFreqs, low2]
  have fdf : (furnishWithFreqs low2 m).diffs = [1] := by simp [furnishWithFreqs, low2]
  refine ⟨m, P, h, ?_, ?_⟩
  · rw [en, interactionPicture, el]
    have e1 : -(m 1 * ((1 : ℝ) : ℂ)) = -(Real.pi * Complex.I) := by simp [m]
    rw [e1, Complex.exp_neg (Real.pi * Complex.I), Complex.exp_pi_mul_I]
    simp [m]
  · have e := product_entry h rfl (i₁ := [1]) (j₁ := [1]) rfl rfl [0] [1]
    have fl : entry (furnishWithFreqs low2 m) [0] [1] = 1 := by
      rw [entry_unary_of (k := 1) frk fdf, fdg]
      simp [low2, Diag.size, Diag.empty]
    simp only [List.cons_append, List.nil_append] at e
    rw [en, fl, mul_one] at e
    rw [← e]
    unfold entry
    rw [propagate_rank, propagate_diffs]
    refine Finset.sum_congr rfl fun z hz => ?_
    have hz : z < 3 ^ 2 := by rw [hr, frk] at hz; exact Finset.mem_range.1 hz
    have hzz : z = (z / 3) * 3 ^ (furnishWithFreqs low2 m).rank + z % 3 := by rw [frk]; omega
    have := product_loses_frequencies h (z / 3) (z % 3) (by rw [frk]; omega) (Or.inl (by simp [nop2, Diag.size, Diag.empty])) 1
    rw [← hzz] at this
    rw [this]

/-- The hypotheses of `propagate_unary` are met. -/
example (m : ℕ → ℂ) (t : ℝ) : entry (propagate (furnishWithFreqs aop3 m) t) [1] [2] =
    Complex.exp (m 1 * t) * (Real.sqrt 2 : ℂ) * Complex.exp (-(m 2 * t)) := by
  rw [propagate_unary aop3 aop3_wf rfl 3 1 rfl rfl rfl, interactionPicture, entry_unary_of (T := aop3) (k := 1) rfl rfl, ← Complex.exp_neg, neg_neg]
  simp [aop3, Diag.size, Diag.empty]
  norm_num

/-- The hypotheses of `product_propagate_partial` are met by a product of two furnished lowering operators. -/
example (m₁ m₂ : ℕ → ℂ) (t : ℝ) : ∃ P P', product (furnishWithFreqs low2 m₁) (furnishWithFreqs low2 m₂) = .ok P ∧
    product (propagate (furnishWithFreqs low2 m₁) t) (propagate (furnishWithFreqs low2 m₂) t) = .ok P' ∧
    entry (propagate P t) [0, 0] [1, 1] = entry P' [0, 0] [1, 1] := by
  obtain ⟨h, -⟩ | ⟨-, P, h, -⟩ := product_shape (furnishWithFreqs low2 m₁) (furnishWithFreqs low2 m₂)
  · exfalso; apply h; simp [furnishWithFreqs, low2]
  obtain ⟨h', -⟩ | ⟨-, P', h', -⟩ := product_shape (propagate (furnishWithFreqs low2 m₁) t) (propagate (furnishWithFreqs low2 m₂) t)
  · exfalso; apply h'; rw [propagate_time, propagate_time]
  refine ⟨P, P', h, h', ?_⟩
  have hr : ∀ m, (furnishWithFreqs low2 m).rank = 1 := fun m => by simp [furnishWithFreqs, low2]
  have hd : ∀ m, (furnishWithFreqs low2 m).diagonals = low2.diagonals := fun m => by simp [furnishWithFreqs, low2]
  have := product_propagate_partial h t h' (by simp [furnishWithFreqs, low2, Diag.size, Diag.empty])
    (by simp [furnishWithFreqs, low2, Diag.size, Diag.empty]) (by
      intro x hx y hy sx sy
      rw [hr] at hx hy
      rw [hd] at sx sy
      have hx2 : x = 2 := by by_contra hne; exact sx (by simp [low2, hne, Diag.size, Diag.empty])
      have hy2 : y = 2 := by by_contra hne; exact sy (by simp [low2, hne, Diag.size, Diag.empty])
      subst hx2 hy2
      simp [furnishWithFreqs, low2, Diag.size]) (by simp [furnishWithFreqs, low2]) (i₁ := [0]) (j₁ := [1]) (by rw [hr]; rfl) (by rw [hr]; rfl) [0] [1]
  simpa using this

end CppQED.Tridiag
