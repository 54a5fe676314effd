import Verif.Props.Tridiagonal

/-! Frequencies of tridiagonals of any rank: an invariant of the algebra, from which the propagated operator follows. -/

namespace CppQED.Tridiag
open CppQED.Spec ComplexConjugate

/-- The frequencies of `T` are those of the interaction picture `U(t)=exp(-Mt)` wherever they are needed. -/
structure Freqs (T : Tri) (M : NIdx → ℂ) : Prop where
  val : ∀ x < 3 ^ T.rank, (T.freqs x).size ≠ 0 → (T.freqs x).shape = diagShape T.dims T.diffs (digits3 T.rank x) ∧
    ∀ i ∈ natBox T.dims, ∀ j ∈ natBox T.dims, OnDiags (digits3 T.rank x) T.diffs i j → (T.freqs x).val (posOns (digits3 T.rank x) i j) = M i - M j
  need : ∀ x < 3 ^ T.rank, ((T.diagonals x).size ≠ 0 ∨ (T.diagonals (transposeIndex T.rank x)).size ≠ 0) → (T.freqs x).size ≠ 0 ∨
    ∀ i ∈ natBox T.dims, ∀ j ∈ natBox T.dims, OnDiags (digits3 T.rank x) T.diffs i j → M i = M j

theorem digits3_zero (r : ℕ) : digits3 r 0 = List.replicate r 0 := by
  induction r with
  | zero => rfl
  | succ r ih => rw [digits3, ih, List.replicate_succ, Nat.zero_div]

theorem onDiags_zero (r : ℕ) (ks : List ℕ) (i j : NIdx) (h : OnDiags (List.replicate r 0) ks i j) : i = j := by
  induction r generalizing ks i j with
  | zero => cases ks <;> cases i <;> cases j <;> simp [OnDiags] at h <;> rfl
  | succ r ih =>
    rw [List.replicate_succ] at h
    cases ks <;> cases i <;> cases j <;> simp only [OnDiags] at h
    obtain ⟨h1, h2⟩ := h
    rw [ih _ _ _ h2]
    simp [OnDiag] at h1
    rw [h1]

/-- The propagated operator. -/
theorem Freqs.entry {T : Tri} {M : NIdx → ℂ} (h : Freqs T M) (t : ℝ) {i j : NIdx} (hi : i ∈ natBox T.dims) (hj : j ∈ natBox T.dims) :
    Spec.entry (propagate T t) i j = Complex.exp ((t - T.time : ℝ) * (M i - M j)) * Spec.entry T i j := by
  unfold Spec.entry
  rw [propagate_rank, propagate_diffs, Finset.mul_sum]
  refine Finset.sum_congr rfl fun x hx => ?_
  rw [Finset.mem_range] at hx
  rw [propagate_size]
  by_cases hc : (T.diagonals x).size ≠ 0 ∧ OnDiags (digits3 T.rank x) T.diffs i j
  · rw [if_pos hc, if_pos hc, propagate_diagonals]
    by_cases h0 : x = 0
    · subst h0
      rw [if_neg (by simp), onDiags_zero T.rank T.diffs i j (by rw [← digits3_zero]; exact hc.2)]
      simp
    · by_cases hf : (T.freqs x).size ≠ 0
      · rw [if_pos ⟨by omega, hx, hc.1, hf⟩]
        simp only
        rw [(h.val x hx hf).2 i hi j hj hc.2, mul_comm]
      · rw [if_neg (fun hh => hf hh.2.2.2), ((h.need x hx (Or.inl hc.1)).resolve_left hf) i hi j hj hc.2]
        simp
  · rw [if_neg hc, if_neg hc, mul_zero]

theorem Freqs.scale {T : Tri} {M : NIdx → ℂ} (h : Freqs T M) (c : ℂ) : Freqs (scale c T) M := ⟨h.val, h.need⟩

theorem Freqs.neg {T : Tri} {M : NIdx → ℂ} (h : Freqs T M) : Freqs (neg T) M := ⟨h.val, h.need⟩

theorem hc_size (T : Tri) {x : ℕ} (hx : x < 3 ^ T.rank) : ((hermitianConjugate T).diagonals x).size = (T.diagonals (transposeIndex T.rank x)).size := by
  rw [hc_diagonals T hx]; rfl

theorem Freqs.dagger {T : Tri} {M : NIdx → ℂ} (h : Freqs T M) : Freqs (hermitianConjugate T) M := by
  refine ⟨h.val, fun x hx hd => ?_⟩
  have hx' : x < 3 ^ T.rank := hx
  rw [hc_size T hx, show (hermitianConjugate T).rank = T.rank from rfl, hc_size T (transposeIndex_lt hx'), transposeIndex_transposeIndex hx'] at hd
  exact h.need x hx hd.symm

/-- Every position on a diagonal is that of a matrix element. -/
theorem pos_exists (Ns ks ds : List ℕ) (hk : ks.length = Ns.length) (hd : ds.length = Ns.length) (n : NIdx) (hn : n ∈ natBox (diagShape Ns ks ds)) (hl : ∀ δ ∈ ds, δ < 3) :
    ∃ i ∈ natBox Ns, ∃ j ∈ natBox Ns, OnDiags ds ks i j ∧ posOns ds i j = n := by
  induction Ns generalizing ks ds n with
  | nil =>
    obtain rfl : ks = [] := by simpa using hk
    obtain rfl : ds = [] := by simpa using hd
    simp only [diagShape, natBox, Finset.mem_singleton] at hn
    subst hn
    exact ⟨[], by simp [natBox], [], by simp [natBox], trivial, rfl⟩
  | cons N Ns ih =>
    obtain ⟨k, ks, rfl⟩ : ∃ k l, ks = k :: l := by cases ks <;> simp at hk ⊢
    obtain ⟨δ, ds, rfl⟩ : ∃ k l, ds = k :: l := by cases ds <;> simp at hd ⊢
    rw [diagShape, mem_natBox] at hn
    obtain ⟨a, l, ha, hl', rfl⟩ : ∃ a l, a < (if δ = 0 then N else N - k) ∧ l ∈ natBox (diagShape Ns ks ds) ∧ n = a :: l := by
      cases hn with
      | cons h1 h2 => exact ⟨_, _, h1, mem_natBox.2 h2, rfl⟩
    obtain ⟨i, hi, j, hj, ho, hp⟩ := ih ks ds (by simpa using hk) (by simpa using hd) l hl' (fun δ h => hl δ (by simp [h]))
    have hδ : δ = 0 ∨ δ = 1 ∨ δ = 2 := by have := hl δ (by simp); omega
    rcases hδ with rfl | rfl | rfl
    · refine ⟨a :: i, mem_natBox.2 (.cons (by simpa using ha) (mem_natBox.1 hi)), a :: j, mem_natBox.2 (.cons (by simpa using ha) (mem_natBox.1 hj)), ⟨by simp [OnDiag], ho⟩, ?_⟩
      simp [posOns, posOn, hp]
    · rw [if_neg (by norm_num)] at ha
      refine ⟨(a + k) :: i, mem_natBox.2 (.cons (by omega) (mem_natBox.1 hi)), a :: j, mem_natBox.2 (.cons (by omega) (mem_natBox.1 hj)), ⟨by simp [OnDiag], ho⟩, ?_⟩
      simp [posOns, posOn, hp]
    · rw [if_neg (by norm_num)] at ha
      refine ⟨a :: i, mem_natBox.2 (.cons (by omega) (mem_natBox.1 hi)), (a + k) :: j, mem_natBox.2 (.cons (by omega) (mem_natBox.1 hj)), ⟨by simp [OnDiag], ho⟩, ?_⟩
      simp [posOns, posOn, hp]

/-- The offsets of the operands are compatible: along every axis, equal or one of them zero; the frequencies are along axes where the offset survives. -/
structure Addable (T S : Tri) : Prop where
  diffs : ∀ a < T.diffs.length, T.diffs.getD a 0 = 0 ∨ S.diffs.getD a 0 = 0 ∨ T.diffs.getD a 0 = S.diffs.getD a 0
  left : T.diffs = S.diffs ∨ ∀ x < 3 ^ T.rank, (T.freqs x).size ≠ 0 → KPos T.diffs (digits3 T.rank x)
  right : T.diffs = S.diffs ∨ ∀ x < 3 ^ T.rank, (S.freqs x).size ≠ 0 → KPos S.diffs (digits3 T.rank x)

theorem mergeDiffs_self (ds : List ℕ) : mergeDiffs ds ds = some ds := by
  induction ds with
  | nil => rfl
  | cons d ds ih => simp only [mergeDiffs, mergeDiff, ih]; split_ifs <;> simp_all

theorem AgreeOn.refl (digs ks : List ℕ) : AgreeOn digs ks ks := by
  induction digs generalizing ks with
  | nil => cases ks <;> simp [AgreeOn]
  | cons δ digs ih => cases ks <;> simp [AgreeOn, ih]

theorem kpos_tau {ks ds : List ℕ} (hl : ∀ δ ∈ ds, δ < 3) (h : KPos ks (ds.map τ)) : KPos ks ds := by
  induction ds generalizing ks with
  | nil => cases ks <;> simp [KPos]
  | cons δ ds ih =>
    cases ks with
    | nil => simp [KPos]
    | cons k ks =>
      obtain ⟨h1, h2⟩ := h
      refine ⟨fun h0 => h1 ?_, ih (fun δ h => hl δ (by simp [h])) h2⟩
      have hδ : δ = 0 ∨ δ = 1 ∨ δ = 2 := by have := hl δ (by simp); omega
      rcases hδ with rfl | rfl | rfl
      · exact absurd rfl h0
      · simp [τ]
      · simp [τ]

theorem Freqs.add {T S : Tri} {M : NIdx → ℂ} (hT : WF T) (hS : WF S) (hr : S.rank = T.rank) (hd : S.dims = T.dims) (fT : Freqs T M) (fS : Freqs S M) (hA : Addable T S) :
    ∃ R, Tridiag.add T S = .ok R ∧ WF R ∧ R.rank = T.rank ∧ R.dims = T.dims ∧ R.time = T.time ∧ (∀ i j, Spec.entry R i j = Spec.entry T i j + Spec.entry S i j) ∧ Freqs R M ∧
      mergeDiffs S.diffs T.diffs = some R.diffs ∧ (∀ x < 3 ^ T.rank, R.freqs x = S.freqs x ∨ R.freqs x = T.freqs x) := by
  have hlS : S.diffs.length = T.diffs.length := by rw [hS.diffs, hT.diffs, hr]
  obtain ⟨D, hM⟩ : ∃ D, mergeDiffs S.diffs T.diffs = some D := by
    cases hM : mergeDiffs S.diffs T.diffs with
    | none =>
      obtain ⟨a, ha, h₁, h₂, h₃⟩ := (mergeDiffs_none hlS).1 hM
      rcases hA.diffs a ha with h | h | h <;> contradiction
    | some D => exact ⟨D, rfl⟩
  have hl := mergeDiffs_length hM
  have agT : ∀ x < 3 ^ T.rank, (T.freqs x).size ≠ 0 → AgreeOn (digits3 T.rank x) D T.diffs := by
    intro x hx hf
    rcases hA.left with h | h
    · rw [← h, mergeDiffs_self] at hM
      rw [← Option.some.inj hM]; exact AgreeOn.refl _ _
    · exact agreeOn_left hM (h x hx hf)
  have agS : ∀ x < 3 ^ T.rank, (S.freqs x).size ≠ 0 → AgreeOn (digits3 T.rank x) D S.diffs := by
    intro x hx hf
    rcases hA.right with h | h
    · rw [← h, mergeDiffs_self] at hM
      rw [← Option.some.inj hM, h]; exact AgreeOn.refl _ _
    · exact agreeOn_right hlS hM (h x hx hf)
  have shapes : ∀ x < 3 ^ T.rank, (T.freqs x).size ≠ 0 → (S.freqs x).size ≠ 0 → (T.freqs x).shape = (S.freqs x).shape ∧ ∀ n, List.Forall₂ (· < ·) n (T.freqs x).shape → (T.freqs x).val n = (S.freqs x).val n := by
    intro x hx h1 h2
    have hx' : x < 3 ^ S.rank := by rw [hr]; exact hx
    obtain ⟨s1, v1⟩ := fT.val x hx h1
    obtain ⟨s2, v2⟩ := fS.val x hx' h2
    rw [hr, hd] at s2 v2
    have e : (T.freqs x).shape = (S.freqs x).shape := by
      rw [s1, s2, ← (agT x hx h1).diagShape hl, ← (agS x hx h2).diagShape (by omega)]
    refine ⟨e, fun n hn => ?_⟩
    rw [s1] at hn
    obtain ⟨i, hi, j, hj, ho, hp⟩ := pos_exists T.dims T.diffs (digits3 T.rank x) (by rw [hT.dims, hT.diffs]) (by rw [digits3_length, hT.dims]) n (mem_natBox.2 hn) (fun δ h => digits3_lt h)
    rw [← hp, v1 i hi j hj ho, v2 i hi j hj]
    rw [← (agS x hx h2).onDiags (by omega), (agT x hx h1).onDiags hl]
    exact ho
  obtain ⟨R, hR⟩ := add_succeeds hT hS hr hd hA.diffs shapes
  obtain ⟨wR, dR, tR, eR⟩ := add_entry hT hS hr hd hR
  obtain ⟨rR, -, -, mR, diR, frR⟩ := add_ok hR
  have hD : D = R.diffs := by rw [hM] at mR; exact Option.some.inj mR
  subst hD
  have fr : ∀ x < 3 ^ T.rank, ((S.freqs x).size ≠ 0 ∧ R.freqs x = S.freqs x) ∨ ((S.freqs x).size = 0 ∧ R.freqs x = T.freqs x) := by
    intro x hx
    have := frR x hx
    unfold mergeFreq at this
    by_cases hs : (S.freqs x).size ≠ 0
    · rw [if_pos hs] at this
      left
      refine ⟨hs, ?_⟩
      split_ifs at this <;> injection this with this <;> exact this.symm
    · rw [if_neg hs] at this
      right
      injection this with this
      exact ⟨not_not.1 hs, this.symm⟩
  refine ⟨R, hR, wR, rR, dR, tR, eR, ⟨?_, ?_⟩, hM, ?_⟩
  · intro x hx hf
    rw [rR] at hx ⊢
    rw [dR]
    rcases fr x hx with ⟨h1, h2⟩ | ⟨h1, h2⟩
    · rw [h2]
      obtain ⟨s2, v2⟩ := fS.val x (by rw [hr]; exact hx) h1
      rw [hr, hd] at s2 v2
      refine ⟨by rw [s2, (agS x hx h1).diagShape (by omega)], fun i hi j hj ho => v2 i hi j hj ?_⟩
      rw [← (agS x hx h1).onDiags (by omega)]; exact ho
    · rw [h2] at hf ⊢
      obtain ⟨s1, v1⟩ := fT.val x hx hf
      refine ⟨by rw [s1, (agT x hx hf).diagShape hl], fun i hi j hj ho => v1 i hi j hj ?_⟩
      rw [← (agT x hx hf).onDiags hl]; exact ho
  · intro x hx hp
    rw [rR] at hx hp ⊢
    rw [dR]
    have hτ := transposeIndex_lt hx
    have src : ∀ y < 3 ^ T.rank, (R.diagonals y).size ≠ 0 → (T.diagonals y).size ≠ 0 ∨ (S.diagonals y).size ≠ 0 := by
      intro y hy h
      by_contra hc
      push Not at hc
      have := diR y hy
      unfold mergeDiag at this
      rw [if_neg (not_not.2 hc.2)] at this
      injection this with this
      rw [← this] at h
      exact h hc.1
    have dg : ∀ x < 3 ^ T.rank, digits3 T.rank (transposeIndex T.rank x) = (digits3 T.rank x).map τ := fun x hx => digits3_transposeIndex hx
    have fromT : ((T.diagonals x).size ≠ 0 ∨ (T.diagonals (transposeIndex T.rank x)).size ≠ 0) → (R.freqs x).size ≠ 0 ∨ ∀ i ∈ natBox T.dims, ∀ j ∈ natBox T.dims, OnDiags (digits3 T.rank x) R.diffs i j → M i = M j := by
      intro hh
      have ag : AgreeOn (digits3 T.rank x) R.diffs T.diffs := by
        apply agreeOn_left hM
        rcases hh with h | h
        · exact hT.kpos x hx h
        · have := hT.kpos _ hτ h
          rw [dg x hx] at this
          exact kpos_tau (fun δ h => digits3_lt h) this
      rcases fT.need x hx hh with h | h
      · left
        rcases fr x hx with ⟨h1, h2⟩ | ⟨h1, h2⟩
        · rw [h2]; exact h1
        · rw [h2]; exact h
      · right
        intro i hi j hj ho
        exact h i hi j hj (by rw [← ag.onDiags hl]; exact ho)
    have fromS : ((S.diagonals x).size ≠ 0 ∨ (S.diagonals (transposeIndex T.rank x)).size ≠ 0) → (R.freqs x).size ≠ 0 ∨ ∀ i ∈ natBox T.dims, ∀ j ∈ natBox T.dims, OnDiags (digits3 T.rank x) R.diffs i j → M i = M j := by
      intro hh
      have ag : AgreeOn (digits3 T.rank x) R.diffs S.diffs := by
        apply agreeOn_right hlS hM
        rcases hh with h | h
        · have := hS.kpos x (by rw [hr]; exact hx) h
          rw [hr] at this; exact this
        · have := hS.kpos _ (by rw [hr]; exact hτ) h
          rw [hr, dg x hx] at this
          exact kpos_tau (fun δ h => digits3_lt h) this
      have nd := fS.need x (by rw [hr]; exact hx) (by rw [hr]; exact hh)
      rw [hr, hd] at nd
      rcases nd with h | h
      · left
        rcases fr x hx with ⟨h1, h2⟩ | ⟨h1, h2⟩
        · rw [h2]; exact h1
        · exact absurd h1 h
      · right
        intro i hi j hj ho
        exact h i hi j hj (by rw [← ag.onDiags (by omega)]; exact ho)
    rcases hp with h | h
    · rcases src x hx h with h | h
      · exact fromT (Or.inl h)
      · exact fromS (Or.inl h)
    · rcases src _ hτ h with h | h
      · exact fromT (Or.inr h)
      · exact fromS (Or.inr h)
  · intro x hx
    rcases fr x hx with ⟨-, h2⟩ | ⟨-, h2⟩
    · exact Or.inl h2
    · exact Or.inr h2

theorem diagShape_append (a₁ a₂ b₁ b₂ c₁ c₂ : List ℕ) (h1 : b₁.length = a₁.length) (h2 : c₁.length = a₁.length) :
    diagShape (a₁ ++ a₂) (b₁ ++ b₂) (c₁ ++ c₂) = diagShape a₁ b₁ c₁ ++ diagShape a₂ b₂ c₂ := by
  induction a₁ generalizing b₁ c₁ with
  | nil =>
    obtain rfl : b₁ = [] := by simpa using h1
    obtain rfl : c₁ = [] := by simpa using h2
    rfl
  | cons a a₁ ih =>
    obtain ⟨b, b₁, rfl⟩ : ∃ k l, b₁ = k :: l := by cases b₁ <;> simp at h1 ⊢
    obtain ⟨c, c₁, rfl⟩ : ∃ k l, c₁ = k :: l := by cases c₁ <;> simp at h2 ⊢
    simp only [List.cons_append, diagShape]
    rw [ih b₁ c₁ (by simpa using h1) (by simpa using h2)]

theorem natBox_split {ns ms : List ℕ} {i : NIdx} (h : i ∈ natBox (ns ++ ms)) : i.take ns.length ∈ natBox ns ∧ i.drop ns.length ∈ natBox ms := by
  rw [mem_natBox] at *
  rw [mem_natBox]
  exact ⟨by simpa using List.forall₂_take ns.length h, by simpa using List.forall₂_drop ns.length h⟩

theorem Freqs.product {t₁ t₂ : Tri} {M₁ M₂ : NIdx → ℂ} (w₁ : WF t₁) (w₂ : WF t₂) (f₁ : Freqs t₁ M₁) (f₂ : Freqs t₂ M₂) (ht : t₁.time = t₂.time)
    (hn : ∀ x < 3 ^ t₁.rank, ∀ y < 3 ^ t₂.rank, ((t₁.diagonals x).size ≠ 0 ∧ (t₂.diagonals y).size ≠ 0) ∨
      ((t₁.diagonals (transposeIndex t₁.rank x)).size ≠ 0 ∧ (t₂.diagonals (transposeIndex t₂.rank y)).size ≠ 0) →
      ((t₁.freqs x).size ≠ 0 ∧ (t₂.freqs y).size ≠ 0) ∨
      ((∀ i ∈ natBox t₁.dims, ∀ j ∈ natBox t₁.dims, OnDiags (digits3 t₁.rank x) t₁.diffs i j → M₁ i = M₁ j) ∧
        ∀ i ∈ natBox t₂.dims, ∀ j ∈ natBox t₂.dims, OnDiags (digits3 t₂.rank y) t₂.diffs i j → M₂ i = M₂ j)) :
    ∃ P, Tridiag.product t₁ t₂ = .ok P ∧ WF P ∧ P.rank = t₁.rank + t₂.rank ∧ P.dims = t₁.dims ++ t₂.dims ∧ P.diffs = t₁.diffs ++ t₂.diffs ∧ P.time = t₁.time ∧
      Freqs P (fun i => M₁ (i.take t₁.rank) + M₂ (i.drop t₁.rank)) ∧
      (∀ x < 3 ^ t₁.rank, ∀ y < 3 ^ t₂.rank, ((P.diagonals (x * 3 ^ t₂.rank + y)).size = (t₁.diagonals x).size * (t₂.diagonals y).size) ∧
        ((P.freqs (x * 3 ^ t₂.rank + y)).size = (t₁.freqs x).size * (t₂.freqs y).size)) := by
  have hP : Tridiag.product t₁ t₂ = .ok ⟨t₁.rank + t₂.rank, t₁.dims ++ t₂.dims, t₁.diffs ++ t₂.diffs, t₁.time,
      directDiagonals true t₁.rank (3 ^ t₂.rank) t₁.diagonals t₂.diagonals, directDiagonals false t₁.rank (3 ^ t₂.rank) t₁.freqs t₂.freqs⟩ := by
    unfold Tridiag.product; rw [if_neg (by simpa using ht)]
  refine ⟨_, hP, product_wf hP w₁ w₂, rfl, rfl, rfl, rfl, ⟨?_, ?_⟩, ?_⟩
  · intro x hx hf
    simp only [directDiagonals, direct_size] at hx hf ⊢
    have hx2 : x % 3 ^ t₂.rank < 3 ^ t₂.rank := Nat.mod_lt _ (by positivity)
    have hx1 : x / 3 ^ t₂.rank < 3 ^ t₁.rank := by
      rw [Nat.div_lt_iff_lt_mul (by positivity), ← pow_add]; exact hx
    obtain ⟨g1, g2⟩ := mul_ne_zero_iff.1 hf
    obtain ⟨s1, v1⟩ := f₁.val _ hx1 g1
    obtain ⟨s2, v2⟩ := f₂.val _ hx2 g2
    rw [digits3_append]
    constructor
    · rw [diagShape_append _ _ _ _ _ _ (by rw [w₁.dims, w₁.diffs]) (by rw [digits3_length, w₁.dims]), ← s1, ← s2]
      rfl
    · intro i hi j hj ho
      obtain ⟨i1, i2⟩ := natBox_split hi
      obtain ⟨j1, j2⟩ := natBox_split hj
      rw [w₁.dims] at i1 i2 j1 j2
      have li := length_of_mem i1
      have lj := length_of_mem j1
      rw [w₁.dims] at li lj
      rw [← List.take_append_drop t₁.rank i, ← List.take_append_drop t₁.rank j] at ho ⊢
      rw [onDiags_append (by rw [digits3_length, w₁.diffs]) (by rw [digits3_length]; simpa using li) (by rw [digits3_length]; simpa using lj)] at ho
      rw [posOns_append (by rw [digits3_length]; simpa using li) (by rw [digits3_length]; simpa using lj)]
      have hl : (posOns (digits3 t₁.rank (x / 3 ^ t₂.rank)) (i.take t₁.rank) (j.take t₁.rank)).length = t₁.rank := by
        rw [posOns_length (by rw [digits3_length]; simpa using li) (by rw [digits3_length]; simpa using lj), digits3_length]
      simp only [direct, Bool.false_eq_true, if_false, List.take_left' hl, List.drop_left' hl]
      rw [v1 _ i1 _ j1 ho.1, v2 _ i2 _ j2 ho.2]
      rw [List.take_append_drop, List.take_append_drop]
      ring
  · intro x hx hp
    simp only [directDiagonals, direct_size] at hx hp ⊢
    have hx2 : x % 3 ^ t₂.rank < 3 ^ t₂.rank := Nat.mod_lt _ (by positivity)
    have hx1 : x / 3 ^ t₂.rank < 3 ^ t₁.rank := by
      rw [Nat.div_lt_iff_lt_mul (by positivity), ← pow_add]; exact hx
    have htr : transposeIndex (t₁.rank + t₂.rank) x / 3 ^ t₂.rank = transposeIndex t₁.rank (x / 3 ^ t₂.rank) ∧
        transposeIndex (t₁.rank + t₂.rank) x % 3 ^ t₂.rank = transposeIndex t₂.rank (x % 3 ^ t₂.rank) := by
      have e := digits3_transposeIndex hx
      rw [digits3_append, digits3_append, List.map_append] at e
      obtain ⟨e1, e2⟩ := List.append_inj e (by simp [digits3_length])
      have b1 : transposeIndex (t₁.rank + t₂.rank) x / 3 ^ t₂.rank < 3 ^ t₁.rank := by
        rw [Nat.div_lt_iff_lt_mul (by positivity), ← pow_add]; exact transposeIndex_lt hx
      have b2 : transposeIndex (t₁.rank + t₂.rank) x % 3 ^ t₂.rank < 3 ^ t₂.rank := Nat.mod_lt _ (by positivity)
      constructor
      · rw [← ofDigits3_digits3 b1, e1, transposeIndex_eq hx1]
      · rw [← ofDigits3_digits3 b2, e2, transposeIndex_eq hx2]
    rw [htr.1, htr.2, mul_ne_zero_iff, mul_ne_zero_iff] at hp
    rcases hn _ hx1 _ hx2 hp with h | ⟨h1, h2⟩
    · left; exact mul_ne_zero h.1 h.2
    · right
      intro i hi j hj ho
      obtain ⟨i1, i2⟩ := natBox_split hi
      obtain ⟨j1, j2⟩ := natBox_split hj
      rw [w₁.dims] at i1 i2 j1 j2
      have li := length_of_mem i1
      have lj := length_of_mem j1
      rw [w₁.dims] at li lj
      rw [digits3_append] at ho
      rw [← List.take_append_drop t₁.rank i, ← List.take_append_drop t₁.rank j] at ho
      rw [onDiags_append (by rw [digits3_length, w₁.diffs]) (by rw [digits3_length]; simpa using li) (by rw [digits3_length]; simpa using lj)] at ho
      rw [h1 _ i1 _ j1 ho.1, h2 _ i2 _ j2 ho.2]
  · intro x hx y hy
    have e₁ : (x * 3 ^ t₂.rank + y) / 3 ^ t₂.rank = x := by
      rw [mul_comm, Nat.mul_add_div (by positivity), Nat.div_eq_of_lt hy, Nat.add_zero]
    have e₂ : (x * 3 ^ t₂.rank + y) % 3 ^ t₂.rank = y := by
      rw [mul_comm, Nat.mul_add_mod, Nat.mod_eq_of_lt hy]
    simp only [directDiagonals, e₁, e₂, direct_size]
    simp

/-- Operators without frequencies are static. -/
theorem Freqs.none {T : Tri} (h : ∀ x < 3 ^ T.rank, (T.freqs x).size = 0) : Freqs T (fun _ => 0) :=
  ⟨fun x hx hf => absurd (h x hx) hf, fun _ _ _ => Or.inr fun _ _ _ _ _ => rfl⟩

/-- Diagonal operators are static. -/
theorem Freqs.diagonal {T : Tri} (M : NIdx → ℂ) (h : ∀ x < 3 ^ T.rank, (T.freqs x).size = 0) (h0 : ∀ x < 3 ^ T.rank, x ≠ 0 → (T.diagonals x).size = 0) : Freqs T M := by
  refine ⟨fun x hx hf => absurd (h x hx) hf, fun x hx hp => Or.inr fun i _ j _ ho => ?_⟩
  have : x = 0 := by
    rcases hp with hp | hp
    · by_contra hc; exact hp (h0 x hx hc)
    · have hτ := transposeIndex_lt hx
      have hz : transposeIndex T.rank x = 0 := by by_contra hc; exact hp (h0 _ hτ hc)
      have := transposeIndex_transposeIndex hx
      rw [hz] at this
      have t0 : transposeIndex T.rank 0 = 0 := by
        have h00 : 0 < 3 ^ T.rank := by positivity
        rw [transposeIndex_eq h00, digits3_zero, List.map_replicate, show τ 0 = 0 from rfl, ← digits3_zero, ofDigits3_digits3 h00]
      rw [← this, t0]
  subst this
  rw [onDiags_zero T.rank T.diffs i j (by rw [← digits3_zero]; exact ho)]

/-- Rank-1 operators with `furnishWithFreqs`. -/
theorem Freqs.furnish {T : Tri} (w : WF T) (hr : T.rank = 1) {d k : ℕ} (hd : T.dims = [d]) (hk : T.diffs = [k]) (h : ∀ x < 3, (T.freqs x).size = 0) (m : ℕ → ℂ) :
    Freqs (furnishWithFreqs T m) (fun i => m (i.getD 0 0)) := by
  have F1 : (furnishWithFreqs T m).rank = 1 := by rw [furnishWithFreqs]; split_ifs <;> exact hr
  have F2 : (furnishWithFreqs T m).dims = [d] := by rw [furnishWithFreqs]; split_ifs <;> exact hd
  have F3 : (furnishWithFreqs T m).diffs = [k] := by rw [furnishWithFreqs]; split_ifs <;> exact hk
  have F4 : (furnishWithFreqs T m).diagonals = T.diagonals := by rw [furnishWithFreqs]; split_ifs <;> rfl
  have F5 : ∀ x < 3, (furnishWithFreqs T m).freqs x = if 0 < d - k then (if x = 1 then ⟨[d - k], fun n => m (n.getD 0 0 + k) - m (n.getD 0 0)⟩ else if x = 2 then
      ⟨[d - k], fun n => -(m (n.getD 0 0 + k) - m (n.getD 0 0))⟩ else T.freqs x) else T.freqs x := by
    intro x _
    unfold furnishWithFreqs
    rw [hd, hk]
    simp only [List.getD_cons_zero]
    split_ifs <;> simp_all
  constructor
  · intro x hx hf
    rw [F1] at hx ⊢
    rw [F2, F3]
    have hx3 : x < 3 := by simpa using hx
    rw [F5 x hx3] at hf ⊢
    rw [digits3_one x hx3]
    by_cases hp : 0 < d - k
    · rw [if_pos hp] at hf ⊢
      have : x = 0 ∨ x = 1 ∨ x = 2 := by omega
      rcases this with rfl | rfl | rfl
      · rw [if_neg (by norm_num), if_neg (by norm_num)] at hf
        exact absurd (h 0 (by norm_num)) hf
      · rw [if_pos rfl]
        refine ⟨by simp [diagShape], ?_⟩
        intro i hi j hj ho
        obtain ⟨a, rfl⟩ : ∃ a, i = [a] := List.length_eq_one_iff.1 (length_of_mem hi)
        obtain ⟨b, rfl⟩ : ∃ a, j = [a] := List.length_eq_one_iff.1 (length_of_mem hj)
        simp only [OnDiags, OnDiag] at ho
        simp at ho
        simp [posOns, posOn, ho]
      · rw [if_neg (by norm_num), if_pos rfl]
        refine ⟨by simp [diagShape], ?_⟩
        intro i hi j hj ho
        obtain ⟨a, rfl⟩ : ∃ a, i = [a] := List.length_eq_one_iff.1 (length_of_mem hi)
        obtain ⟨b, rfl⟩ : ∃ a, j = [a] := List.length_eq_one_iff.1 (length_of_mem hj)
        simp only [OnDiags, OnDiag] at ho
        simp at ho
        simp [posOns, posOn, ho]
    · rw [if_neg hp] at hf
      exact absurd (h x hx3) hf
  · intro x hx hp
    rw [F1] at hx hp ⊢
    rw [F4] at hp
    rw [F2, F3]
    have hx3 : x < 3 := by simpa using hx
    rw [F5 x hx3, digits3_one x hx3]
    by_cases h0 : x = 0
    · subst h0
      right
      intro i hi j hj ho
      rw [onDiags_zero 1 [k] i j ho]
    · left
      have sz : 0 < d - k := by
        have key : ∀ y, y = 1 ∨ y = 2 → (T.diagonals y).size ≠ 0 → 0 < d - k := by
          intro y hy hs
          have h1 := w.shape y (by rw [hr]; omega) hs
          rw [hr, hd, hk, digits3_one y (by omega)] at h1
          have : (T.diagonals y).size = d - k := by
            rw [Diag.size, h1]
            rcases hy with rfl | rfl <;> simp [diagShape]
          omega
        have tr : transposeIndex 1 x = 1 ∨ transposeIndex 1 x = 2 := by
          have : x = 1 ∨ x = 2 := by omega
          rcases this with rfl | rfl
          · right; decide
          · left; decide
        rcases hp with hp | hp
        · exact key x (by omega) hp
        · exact key _ tr hp
      rw [if_pos sz]
      have : x = 1 ∨ x = 2 := by omega
      rcases this with rfl | rfl
      · simp [Diag.size]; omega
      · simp [Diag.size]; omega

end CppQED.Tridiag
