import Verif.Lemmas.TridiagonalIP
import Verif.Lemmas.Particle

/-! # Operators of any rank in interaction picture -/

namespace CppQED.Tridiag
open CppQED.Spec ComplexConjugate

/-- A consistent operator of dimensions `ds` at time 0 with the matrix elements `E` and the frequencies of the interaction picture `exp(-Mt)`. -/
structure Op (ds : List ℕ) (M : NIdx → ℂ) (T : Tri) (E : NIdx → NIdx → ℂ) : Prop where
  wf : WF T
  dims : T.dims = ds
  time : T.time = 0
  freqs : Freqs T M
  entry : ∀ i ∈ natBox ds, ∀ j ∈ natBox ds, Spec.entry T i j = E i j

/-- Is the diagonal, or its transpose, stored? -/
def Present (T : Tri) (x : ℕ) : Prop := (T.diagonals x).size ≠ 0 ∨ (T.diagonals (transposeIndex T.rank x)).size ≠ 0

/-- All the stored diagonals have frequencies. -/
def Pure (T : Tri) : Prop := ∀ x < 3 ^ T.rank, Present T x → (T.freqs x).size ≠ 0

/-- The operator does not change in the interaction picture. -/
def Static (T : Tri) (M : NIdx → ℂ) : Prop := ∀ x < 3 ^ T.rank, Present T x → ∀ i ∈ natBox T.dims, ∀ j ∈ natBox T.dims, OnDiags (digits3 T.rank x) T.diffs i j → M i = M j

theorem Op.rank {ds : List ℕ} {M : NIdx → ℂ} {T : Tri} {E : NIdx → NIdx → ℂ} (h : Op ds M T E) : T.rank = ds.length := by rw [← h.wf.dims, h.dims]

theorem Op.congr {ds : List ℕ} {M : NIdx → ℂ} {T : Tri} {E F : NIdx → NIdx → ℂ} (h : Op ds M T E) (he : ∀ i ∈ natBox ds, ∀ j ∈ natBox ds, E i j = F i j) : Op ds M T F :=
  ⟨h.wf, h.dims, h.time, h.freqs, fun i hi j hj => by rw [h.entry i hi j hj, he i hi j hj]⟩

/-- Frequencies matter only through their differences. -/
theorem Freqs.congr {T : Tri} {M N : NIdx → ℂ} (h : Freqs T M) (he : ∀ i ∈ natBox T.dims, ∀ j ∈ natBox T.dims, M i - M j = N i - N j) : Freqs T N := by
  refine ⟨fun x hx hf => ⟨(h.val x hx hf).1, fun i hi j hj ho => by rw [(h.val x hx hf).2 i hi j hj ho, he i hi j hj]⟩, fun x hx hp => (h.need x hx hp).imp id fun hs i hi j hj ho => ?_⟩
  have := he i hi j hj
  rw [hs i hi j hj ho, sub_self] at this
  exact sub_eq_zero.1 this.symm

theorem Op.congrM {ds : List ℕ} {M N : NIdx → ℂ} {T : Tri} {E : NIdx → NIdx → ℂ} (h : Op ds M T E) (he : ∀ i ∈ natBox ds, ∀ j ∈ natBox ds, M i - M j = N i - N j) : Op ds N T E :=
  ⟨h.wf, h.dims, h.time, h.freqs.congr (by rw [h.dims]; exact he), h.entry⟩

theorem Static.congr {T : Tri} {M N : NIdx → ℂ} (h : Static T M) (he : ∀ i ∈ natBox T.dims, ∀ j ∈ natBox T.dims, M i - M j = N i - N j) : Static T N := by
  intro x hx hp i hi j hj ho
  have := he i hi j hj
  rw [h x hx hp i hi j hj ho, sub_self] at this
  exact sub_eq_zero.1 this.symm

/-! ## The propagated operator -/

theorem Op.apply {ds : List ℕ} {M : NIdx → ℂ} {T : Tri} {E : NIdx → NIdx → ℂ} (h : Op ds M T E) (τ : ℝ) (psi dpsidt : NIdx → ℂ) (i : NIdx) (hi : i ∈ natBox ds) :
    Tridiag.apply (propagate T τ) psi dpsidt i = dpsidt i + ∑ j ∈ natBox ds, Complex.exp (M i * τ) * E i j * Complex.exp (-(M j * τ)) * psi j := by
  rw [apply_eq_matrix _ (by rw [propagate_dims, propagate_rank, h.wf.dims]) (by rw [propagate_diffs, propagate_rank, h.wf.diffs]) _ _ _ (by rw [propagate_dims, h.dims]; exact hi),
    propagate_dims, h.dims]
  congr 1
  refine Finset.sum_congr rfl fun j hj => ?_
  rw [h.freqs.entry τ (by rw [h.dims]; exact hi) (by rw [h.dims]; exact hj), h.entry i hi j hj, h.time, sub_zero]
  have : Complex.exp ((τ : ℂ) * (M i - M j)) = Complex.exp (M i * τ) * Complex.exp (-(M j * τ)) := by rw [← Complex.exp_add]; ring_nf
  rw [this]; ring

/-! ## Algebra -/

section
variable {ds : List ℕ} {M : NIdx → ℂ} {T S : Tri} {E F : NIdx → NIdx → ℂ}

theorem Op.scale (h : Op ds M T E) (c : ℂ) : Op ds M (scale c T) (fun i j => c * E i j) :=
  ⟨scale_wf h.wf c, h.dims, h.time, h.freqs.scale c, fun i hi j hj => by rw [scale_entry, h.entry i hi j hj]⟩

theorem Op.neg (h : Op ds M T E) : Op ds M (neg T) (fun i j => -E i j) :=
  ⟨neg_wf h.wf, h.dims, h.time, h.freqs.neg, fun i hi j hj => by rw [neg_entry, h.entry i hi j hj]⟩

theorem Op.dagger (h : Op ds M T E) : Op ds M (hermitianConjugate T) (fun i j => conj (E j i)) :=
  ⟨dagger_wf h.wf, h.dims, h.time, h.freqs.dagger, fun i hi j hj => by rw [dagger_entry, h.entry j hj i hi]⟩

theorem present_scale (c : ℂ) (T : Tri) (x : ℕ) : Present (Tridiag.scale c T) x ↔ Present T x := Iff.rfl
theorem present_neg (T : Tri) (x : ℕ) : Present (Tridiag.neg T) x ↔ Present T x := Iff.rfl
theorem present_dagger (T : Tri) {x : ℕ} (hx : x < 3 ^ T.rank) : Present (hermitianConjugate T) x ↔ Present T x := by
  unfold Present
  rw [hc_size T hx, show (hermitianConjugate T).rank = T.rank from rfl, hc_size T (transposeIndex_lt hx), transposeIndex_transposeIndex hx, or_comm]

theorem Pure.scale (h : Pure T) (c : ℂ) : Pure (Tridiag.scale c T) := h
theorem Pure.neg (h : Pure T) : Pure (Tridiag.neg T) := h
theorem Pure.dagger (h : Pure T) : Pure (hermitianConjugate T) := fun x hx hp => h x hx ((present_dagger T hx).1 hp)
theorem Static.scale (h : Static T M) (c : ℂ) : Static (Tridiag.scale c T) M := h
theorem Static.neg (h : Static T M) : Static (Tridiag.neg T) M := h
theorem Static.dagger (h : Static T M) : Static (hermitianConjugate T) M := fun x hx hp => h x hx ((present_dagger T hx).1 hp)

theorem static_zero (T : Tri) : Static T (fun _ => 0) := fun _ _ _ _ _ _ _ _ => rfl

theorem add_present {R : Tri} (hR : Tridiag.add T S = .ok R) (hr : S.rank = T.rank) {x : ℕ} (hx : x < 3 ^ T.rank) (hp : Present R x) : Present T x ∨ Present S x := by
  obtain ⟨rR, -, -, -, diR, -⟩ := add_ok hR
  have src : ∀ y < 3 ^ T.rank, (R.diagonals y).size ≠ 0 → (T.diagonals y).size ≠ 0 ∨ (S.diagonals y).size ≠ 0 := by
    intro y hy h
    by_contra hc
    push Not at hc
    have := diR y hy
    unfold mergeDiag at this
    rw [if_neg (not_not.2 hc.2)] at this
    injection this with this
    rw [← this] at h
    exact h hc.1
  unfold Present at hp ⊢
  rw [rR] at hp
  rw [hr]
  rcases hp with h | h
  · rcases src x hx h with h | h
    · exact Or.inl (Or.inl h)
    · exact Or.inr (Or.inl h)
  · rcases src _ (transposeIndex_lt hx) h with h | h
    · exact Or.inl (Or.inr h)
    · exact Or.inr (Or.inr h)

theorem add_freqs {R : Tri} (hR : Tridiag.add T S = .ok R) {x : ℕ} (hx : x < 3 ^ T.rank) (h : (T.freqs x).size ≠ 0 ∨ (S.freqs x).size ≠ 0) : (R.freqs x).size ≠ 0 := by
  have := (add_ok hR).2.2.2.2.2 x hx
  unfold mergeFreq at this
  by_cases hs : (S.freqs x).size ≠ 0
  · rw [if_pos hs] at this
    split_ifs at this <;> injection this with this <;> rw [← this] <;> exact hs
  · rw [if_neg hs] at this
    injection this with this
    rw [← this]; exact h.resolve_right hs

theorem Pure.add {R : Tri} (hT : Pure T) (hS : Pure S) (hr : S.rank = T.rank) (hR : Tridiag.add T S = .ok R) : Pure R := by
  intro x hx hp
  rw [(add_ok hR).1] at hx
  rcases add_present hR hr hx hp with h | h
  · exact add_freqs hR hx (Or.inl (hT x hx h))
  · exact add_freqs hR hx (Or.inr (hS x (by rw [hr]; exact hx) h))

theorem Op.add (h : Op ds M T E) (g : Op ds M S F) (hA : Addable T S) :
    ∃ R, Tridiag.add T S = .ok R ∧ Op ds M R (fun i j => E i j + F i j) ∧ mergeDiffs S.diffs T.diffs = some R.diffs := by
  obtain ⟨R, h1, h2, h3, h4, h5, h6, h7, h8, -⟩ := Freqs.add h.wf g.wf (by rw [g.rank, h.rank]) (by rw [g.dims, h.dims]) h.freqs g.freqs hA
  exact ⟨R, h1, ⟨h2, by rw [h4, h.dims], by rw [h5, h.time], h7, fun i hi j hj => by rw [h6, h.entry i hi j hj, g.entry i hi j hj]⟩, h8⟩

theorem Op.add_same (h : Op ds M T E) (g : Op ds M S F) (e : T.diffs = S.diffs) : ∃ R, Tridiag.add T S = .ok R ∧ Op ds M R (fun i j => E i j + F i j) ∧ R.diffs = T.diffs := by
  obtain ⟨R, h1, h2, h3⟩ := h.add g ⟨fun a _ => Or.inr (Or.inr (by rw [e])), Or.inl e, Or.inl e⟩
  rw [← e, mergeDiffs_self] at h3
  exact ⟨R, h1, h2, (Option.some.inj h3).symm⟩

theorem Op.plusHC (h : Op ds M T E) : ∃ R, Tridiag.plusHC T = .ok R ∧ Op ds M R (fun i j => E i j + conj (E j i)) ∧ R.diffs = T.diffs ∧ (Pure T → Pure R) := by
  obtain ⟨R, h1, h2, h3⟩ := h.add_same h.dagger rfl
  exact ⟨R, h1, h2, h3, fun hp => hp.add hp.dagger rfl h1⟩

theorem Op.minusHC (h : Op ds M T E) : ∃ R, Tridiag.minusHC T = .ok R ∧ Op ds M R (fun i j => E i j - conj (E j i)) ∧ R.diffs = T.diffs ∧ (Pure T → Pure R) := by
  obtain ⟨R, h1, h2, h3⟩ := h.add_same h.dagger.neg rfl
  exact ⟨R, h1, h2.congr fun _ _ _ _ => (sub_eq_add_neg _ _).symm, h3, fun hp => hp.add hp.dagger.neg rfl h1⟩
end

/-- The tensor product of operators with `r` indices for the first factor. -/
def kron (r : ℕ) (A B : NIdx → NIdx → ℂ) : NIdx → NIdx → ℂ := fun i j => A (i.take r) (j.take r) * B (i.drop r) (j.drop r)

theorem transposeIndex_split (r₁ r₂ : ℕ) {x : ℕ} (hx : x < 3 ^ (r₁ + r₂)) :
    transposeIndex (r₁ + r₂) x / 3 ^ r₂ = transposeIndex r₁ (x / 3 ^ r₂) ∧ transposeIndex (r₁ + r₂) x % 3 ^ r₂ = transposeIndex r₂ (x % 3 ^ r₂) := by
  have hx2 : x % 3 ^ r₂ < 3 ^ r₂ := Nat.mod_lt _ (by positivity)
  have hx1 : x / 3 ^ r₂ < 3 ^ r₁ := by
    rw [Nat.div_lt_iff_lt_mul (by positivity), ← pow_add]; exact hx
  have e := digits3_transposeIndex hx
  rw [digits3_append, digits3_append, List.map_append] at e
  obtain ⟨e1, e2⟩ := List.append_inj e (by simp [digits3_length])
  have b1 : transposeIndex (r₁ + r₂) x / 3 ^ r₂ < 3 ^ r₁ := by
    rw [Nat.div_lt_iff_lt_mul (by positivity), ← pow_add]; exact transposeIndex_lt hx
  have b2 : transposeIndex (r₁ + r₂) x % 3 ^ r₂ < 3 ^ r₂ := Nat.mod_lt _ (by positivity)
  constructor
  · rw [← ofDigits3_digits3 b1, e1, transposeIndex_eq hx1]
  · rw [← ofDigits3_digits3 b2, e2, transposeIndex_eq hx2]

/-- The product of two operators all of whose diagonals have frequencies, or of two operators which do not change. -/
theorem Op.product {d₁ d₂ : List ℕ} {M₁ M₂ : NIdx → ℂ} {t₁ t₂ : Tri} {E₁ E₂ : NIdx → NIdx → ℂ} (h₁ : Op d₁ M₁ t₁ E₁) (h₂ : Op d₂ M₂ t₂ E₂)
    (hc : (Pure t₁ ∧ Pure t₂) ∨ (Static t₁ M₁ ∧ Static t₂ M₂)) :
    ∃ P, Tridiag.product t₁ t₂ = .ok P ∧ Op (d₁ ++ d₂) (fun i => M₁ (i.take d₁.length) + M₂ (i.drop d₁.length)) P (kron d₁.length E₁ E₂) ∧ P.diffs = t₁.diffs ++ t₂.diffs ∧
      (Pure t₁ ∧ Pure t₂ → Pure P) ∧ (Static t₁ M₁ ∧ Static t₂ M₂ → Static P (fun i => M₁ (i.take d₁.length) + M₂ (i.drop d₁.length))) ∧
      ((∀ x < 3 ^ t₁.rank, (t₁.freqs x).size = 0) → ∀ x < 3 ^ P.rank, (P.freqs x).size = 0) := by
  obtain ⟨P, p1, p2, p3, p4, p5, p6, p7, p8⟩ := Freqs.product h₁.wf h₂.wf h₁.freqs h₂.freqs (by rw [h₁.time, h₂.time]) (by
    intro x hx y hy hp
    have px : Present t₁ x := hp.imp (fun h => h.1) (fun h => h.1)
    have py : Present t₂ y := hp.imp (fun h => h.2) (fun h => h.2)
    rcases hc with ⟨c1, c2⟩ | ⟨c1, c2⟩
    · exact Or.inl ⟨c1 x hx px, c2 y hy py⟩
    · exact Or.inr ⟨c1 x hx px, c2 y hy py⟩)
  have pres : ∀ x < 3 ^ (t₁.rank + t₂.rank), Present P x → Present t₁ (x / 3 ^ t₂.rank) ∧ Present t₂ (x % 3 ^ t₂.rank) := by
    intro x hx hp
    have hx2 : x % 3 ^ t₂.rank < 3 ^ t₂.rank := Nat.mod_lt _ (by positivity)
    have hx1 : x / 3 ^ t₂.rank < 3 ^ t₁.rank := by
      rw [Nat.div_lt_iff_lt_mul (by positivity), ← pow_add]; exact hx
    have key : ∀ y < 3 ^ (t₁.rank + t₂.rank), (P.diagonals y).size ≠ 0 → (t₁.diagonals (y / 3 ^ t₂.rank)).size ≠ 0 ∧ (t₂.diagonals (y % 3 ^ t₂.rank)).size ≠ 0 := by
      intro y hy hs
      have hy2 : y % 3 ^ t₂.rank < 3 ^ t₂.rank := Nat.mod_lt _ (by positivity)
      have hy1 : y / 3 ^ t₂.rank < 3 ^ t₁.rank := by
        rw [Nat.div_lt_iff_lt_mul (by positivity), ← pow_add]; exact hy
      have := (p8 _ hy1 _ hy2).1
      rw [mul_comm (y / _), Nat.div_add_mod] at this
      rw [this] at hs
      exact mul_ne_zero_iff.1 hs
    unfold Present at hp ⊢
    rw [p3] at hp
    obtain ⟨e1, e2⟩ := transposeIndex_split t₁.rank t₂.rank hx
    rcases hp with h | h
    · exact ⟨Or.inl (key x hx h).1, Or.inl (key x hx h).2⟩
    · have := key _ (transposeIndex_lt hx) h
      rw [e1, e2] at this
      exact ⟨Or.inr this.1, Or.inr this.2⟩
  have hr1 := h₁.rank
  refine ⟨P, p1, ⟨p2, by rw [p4, h₁.dims, h₂.dims], by rw [p6, h₁.time], by rw [← hr1]; exact p7, ?_⟩, p5, ?_, ?_, ?_⟩
  · intro i hi j hj
    obtain ⟨i1, i2⟩ := natBox_split hi
    obtain ⟨j1, j2⟩ := natBox_split hj
    have := product_entry p1 h₁.wf.diffs (i₁ := i.take d₁.length) (j₁ := j.take d₁.length) (by rw [length_of_mem i1, hr1]) (by rw [length_of_mem j1, hr1]) (i.drop d₁.length) (j.drop d₁.length)
    rw [List.take_append_drop, List.take_append_drop] at this
    rw [this, h₁.entry _ i1 _ j1, h₂.entry _ i2 _ j2]
    rfl
  · intro ⟨c1, c2⟩ x hx hp
    rw [p3] at hx
    obtain ⟨q1, q2⟩ := pres x hx hp
    have hx2 : x % 3 ^ t₂.rank < 3 ^ t₂.rank := Nat.mod_lt _ (by positivity)
    have hx1 : x / 3 ^ t₂.rank < 3 ^ t₁.rank := by
      rw [Nat.div_lt_iff_lt_mul (by positivity), ← pow_add]; exact hx
    have := (p8 _ hx1 _ hx2).2
    rw [mul_comm (x / _), Nat.div_add_mod] at this
    rw [this]
    exact mul_ne_zero (c1 _ hx1 q1) (c2 _ hx2 q2)
  · intro ⟨c1, c2⟩ x hx hp i hi j hj ho
    rw [p3] at hx ho
    rw [p4] at hi hj
    obtain ⟨q1, q2⟩ := pres x hx hp
    have hx2 : x % 3 ^ t₂.rank < 3 ^ t₂.rank := Nat.mod_lt _ (by positivity)
    have hx1 : x / 3 ^ t₂.rank < 3 ^ t₁.rank := by
      rw [Nat.div_lt_iff_lt_mul (by positivity), ← pow_add]; exact hx
    obtain ⟨i1, i2⟩ := natBox_split hi
    obtain ⟨j1, j2⟩ := natBox_split hj
    rw [h₁.wf.dims] at i1 i2 j1 j2
    have li := length_of_mem i1
    have lj := length_of_mem j1
    rw [h₁.wf.dims] at li lj
    rw [p5, digits3_append] at ho
    rw [← List.take_append_drop t₁.rank i, ← List.take_append_drop t₁.rank j] at ho
    rw [onDiags_append (by rw [digits3_length, h₁.wf.diffs]) (by rw [digits3_length]; simpa using li) (by rw [digits3_length]; simpa using lj)] at ho
    simp only
    rw [← hr1, c1 _ hx1 q1 _ i1 _ j1 ho.1, c2 _ hx2 q2 _ i2 _ j2 ho.2]
  · intro hz x hx
    rw [p3] at hx
    have hx2 : x % 3 ^ t₂.rank < 3 ^ t₂.rank := Nat.mod_lt _ (by positivity)
    have hx1 : x / 3 ^ t₂.rank < 3 ^ t₁.rank := by
      rw [Nat.div_lt_iff_lt_mul (by positivity), ← pow_add]; exact hx
    have := (p8 _ hx1 _ hx2).2
    rw [mul_comm (x / _), Nat.div_add_mod] at this
    rw [this, hz _ hx1, zero_mul]

end CppQED.Tridiag
