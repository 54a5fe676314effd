import Verif.Lemmas.TridiagonalIP
import Verif.Lemmas.Mode
import Verif.Spec.Particle

/-! Rank-1 operators with frequencies, and the operators of the particle. -/

namespace CppQED.ParticleEl
open CppQED.Elem CppQED.Tridiag CppQED.ModeEl CppQED.Spec
open ComplexConjugate

/-- A consistent rank-1 operator of dimension `d` with the offset `k` and the matrix elements `E` in the interaction picture `exp(-mt)`. -/
structure POp (d : ℕ) (m : ℕ → ℂ) (k : ℕ) (T : Tri) (E : Dens) : Prop where
  ok : TriOK d T E
  diffs : T.diffs = [k]
  freqs : Freqs T (fun i => m (i.getD 0 0))

theorem POp.propagate {d k : ℕ} {m : ℕ → ℂ} {T : Tri} {E : Dens} (h : POp d m k T E) (t : ℝ) (i j : ℕ) (hi : i < d) (hj : j < d) :
    Spec.entry (propagate T t) [i] [j] = interactionPicture m E t i j := by
  rw [h.freqs.entry t (by rw [h.ok.dims, mem_natBox_one]; exact hi) (by rw [h.ok.dims, mem_natBox_one]; exact hj), h.ok.entry i hi j hj, h.ok.time]
  simp only [interactionPicture, List.getD_cons_zero, sub_zero]
  rw [← Complex.exp_neg, mul_sub, Complex.exp_sub, Complex.exp_neg (m j * _)]
  rw [show -(-(m i * (t : ℂ))) = t * m i by ring, mul_comm (m j)]
  field_simp

theorem POp.scale {d k : ℕ} {m : ℕ → ℂ} {T : Tri} {E : Dens} (h : POp d m k T E) (c : ℂ) : POp d m k (scale c T) (fun i j => c * E i j) :=
  ⟨h.ok.scale c, h.diffs, h.freqs.scale c⟩

theorem POp.neg {d k : ℕ} {m : ℕ → ℂ} {T : Tri} {E : Dens} (h : POp d m k T E) : POp d m k (neg T) (fun i j => -E i j) :=
  ⟨h.ok.neg, h.diffs, h.freqs.neg⟩

theorem POp.dagger {d k : ℕ} {m : ℕ → ℂ} {T : Tri} {E : Dens} (h : POp d m k T E) : POp d m k (hermitianConjugate T) (fun i j => conj (E j i)) :=
  ⟨h.ok.dagger, h.diffs, h.freqs.dagger⟩

theorem POp.congr {d k : ℕ} {m : ℕ → ℂ} {T : Tri} {E F : Dens} (h : POp d m k T E) (he : ∀ i < d, ∀ j < d, E i j = F i j) : POp d m k T F :=
  ⟨h.ok.congr he, h.diffs, h.freqs⟩

theorem POp.add_of {d k k' : ℕ} {m : ℕ → ℂ} {T S : Tri} {E F : Dens} (h : POp d m k T E) (g : POp d m k' S F) (hA : Addable T S) (hk : k = 0 ∨ k' = 0 ∨ k = k') :
    ∃ R, Tridiag.add T S = .ok R ∧ POp d m (if k = 0 then k' else k) R (fun i j => E i j + F i j) := by
  obtain ⟨R, h1, h2, h3, h4, h5, h6, h7, h8, h9⟩ := Freqs.add h.ok.wf g.ok.wf (by rw [g.ok.rank, h.ok.rank]) (by rw [g.ok.dims, h.ok.dims]) h.freqs g.freqs hA
  refine ⟨R, h1, ⟨by rw [h3, h.ok.rank], by rw [h4, h.ok.dims], by rw [h5, h.ok.time], h2, fun i hi j hj => by rw [h6, h.ok.entry i hi j hj, g.ok.entry i hi j hj]⟩, ?_, h7⟩
  rw [g.diffs, h.diffs] at h8
  simp only [mergeDiffs, mergeDiff] at h8
  by_cases h0 : k = 0
  · rw [if_pos h0] at h8 ⊢
    simpa using h8.symm
  · rw [if_neg h0] at h8 ⊢
    rw [if_neg (by rcases hk with h | h | h <;> omega)] at h8
    simpa using h8.symm

theorem POp.add_same {d k : ℕ} {m : ℕ → ℂ} {T S : Tri} {E F : Dens} (h : POp d m k T E) (g : POp d m k S F) : ∃ R, Tridiag.add T S = .ok R ∧ POp d m k R (fun i j => E i j + F i j) := by
  have e : T.diffs = S.diffs := by rw [h.diffs, g.diffs]
  obtain ⟨R, h1, h2⟩ := h.add_of g ⟨fun a _ => Or.inr (Or.inr (by rw [e])), Or.inl e, Or.inl e⟩ (Or.inr (Or.inr rfl))
  exact ⟨R, h1, by simpa using h2⟩

theorem POp.sub_same {d k : ℕ} {m : ℕ → ℂ} {T S : Tri} {E F : Dens} (h : POp d m k T E) (g : POp d m k S F) : ∃ R, Tridiag.sub T S = .ok R ∧ POp d m k R (fun i j => E i j - F i j) := by
  obtain ⟨R, h1, h2⟩ := h.add_same g.neg
  exact ⟨R, h1, by simpa only [sub_eq_add_neg] using h2⟩

/-- A diagonal operator without frequencies. -/
structure DOp (d : ℕ) (T : Tri) (E : Dens) : Prop where
  ok : TriOK d T E
  diffs : T.diffs = [0]
  freqs : ∀ x, (T.freqs x).size = 0
  diag : ∀ x, x < 3 → x ≠ 0 → (T.diagonals x).size = 0

theorem DOp.pop {d : ℕ} {T : Tri} {E : Dens} (h : DOp d T E) (m : ℕ → ℂ) : POp d m 0 T E :=
  ⟨h.ok, h.diffs, Freqs.diagonal _ (fun x _ => h.freqs x) (fun x hx => h.diag x (by rw [h.ok.rank] at hx; simpa using hx))⟩

theorem DOp.neg {d : ℕ} {T : Tri} {E : Dens} (h : DOp d T E) : DOp d (neg T) (fun i j => -E i j) :=
  ⟨h.ok.neg, h.diffs, h.freqs, h.diag⟩

theorem DOp.scale {d : ℕ} {T : Tri} {E : Dens} (h : DOp d T E) (c : ℂ) : DOp d (Tridiag.scale c T) (fun i j => c * E i j) :=
  ⟨h.ok.scale c, h.diffs, h.freqs, h.diag⟩

theorem kpos_one {k x : ℕ} (hx : x < 3) (hk : k ≠ 0) : KPos [k] (digits3 1 x) := by
  rw [digits3_one x hx]; exact ⟨fun _ => hk, trivial⟩

theorem DOp.add {d k : ℕ} {m : ℕ → ℂ} {T S : Tri} {E F : Dens} (h : DOp d T E) (g : POp d m k S F) : ∃ R, Tridiag.add T S = .ok R ∧ POp d m k R (fun i j => E i j + F i j) := by
  obtain ⟨R, h1, h2⟩ := (h.pop m).add_of g ⟨fun a ha => Or.inl (by rw [h.diffs] at ha ⊢; simp at ha; simp [ha]), Or.inr fun x _ hf => absurd (h.freqs x) hf, by
    by_cases hk : k = 0
    · left; rw [h.diffs, g.diffs, hk]
    · right; intro x hx _; rw [h.ok.rank] at hx ⊢; rw [g.diffs]; exact kpos_one (by simpa using hx) hk⟩ (Or.inl rfl)
  exact ⟨R, h1, by simpa using h2⟩

theorem POp.addD {d k : ℕ} {m : ℕ → ℂ} {T S : Tri} {E F : Dens} (g : POp d m k T E) (h : DOp d S F) : ∃ R, Tridiag.add T S = .ok R ∧ POp d m k R (fun i j => E i j + F i j) := by
  obtain ⟨R, h1, h2⟩ := g.add_of (h.pop m) ⟨fun a ha => Or.inr (Or.inl (by rw [h.diffs]; rw [g.diffs] at ha; simp at ha; simp [ha])), by
    by_cases hk : k = 0
    · left; rw [h.diffs, g.diffs, hk]
    · right; intro x hx _; rw [g.ok.rank] at hx ⊢; rw [g.diffs]; exact kpos_one (by simpa using hx) hk, Or.inr fun x _ hf => absurd (h.freqs x) hf⟩ (Or.inr (Or.inl rfl))
  refine ⟨R, h1, ?_⟩
  by_cases hk : k = 0
  · subst hk; simpa using h2
  · rw [if_neg hk] at h2; exact h2

theorem DOp.sub {d k : ℕ} {m : ℕ → ℂ} {T S : Tri} {E F : Dens} (h : DOp d T E) (g : POp d m k S F) : ∃ R, Tridiag.sub T S = .ok R ∧ POp d m k R (fun i j => E i j - F i j) := by
  obtain ⟨R, h1, h2⟩ := h.add g.neg
  exact ⟨R, h1, by simpa only [sub_eq_add_neg] using h2⟩

theorem POp.subD {d k : ℕ} {m : ℕ → ℂ} {T S : Tri} {E F : Dens} (g : POp d m k T E) (h : DOp d S F) : ∃ R, Tridiag.sub T S = .ok R ∧ POp d m k R (fun i j => E i j - F i j) := by
  obtain ⟨R, h1, h2⟩ := g.addD h.neg
  exact ⟨R, h1, by simpa only [sub_eq_add_neg] using h2⟩

theorem diagonal_dop (d : ℕ) (hd : d < 2 ^ 63) (h0 : 0 < d) (f : ℕ → ℂ) : ∃ T, diagonalOperator d f = .ok T ∧ DOp d T (fun i j => if i = j then f i else 0) := by
  obtain ⟨T, h1, h2, h3⟩ := diagonalOperator_ok d hd h0 f
  refine ⟨T, h1, ⟨h2, ?_, h3, ?_⟩⟩
  · rw [unary_ok h1]
  · intro x _ hx
    rw [unary_ok h1]
    simp only [if_neg hx]
    split_ifs <;> rfl

theorem identity_dop (d : ℕ) (hd : d < 2 ^ 63) (h0 : 0 < d) : ∃ T, identity d = .ok T ∧ DOp d T (fun i j => if i = j then 1 else 0) :=
  diagonal_dop d hd h0 fun _ => 1

/-! ## The exponential -/

/-- The shift by `nK`. -/
def expE (nK : ℤ) : Dens := fun i j => if (i : ℤ) = j + nK then 1 else 0

theorem expINKX_ok (d : ℕ) (hd : d < 2 ^ 63) (h0 : 0 < d) (nK : ℤ) (hn : nK.natAbs ≤ d) :
    ∃ T, expINKX d nK = .ok T ∧ TriOK d T (expE nK) ∧ T.diffs = [nK.natAbs] ∧ ∀ i, (T.freqs i).size = 0 := by
  unfold expINKX
  have hD : ¬ ((d : ℤ) - (if nK > 0 then nK else -nK) < 0) := by split_ifs <;> omega
  have hD' : ((d : ℤ) - (if nK > 0 then nK else -nK)).toNat = d - nK.natAbs := by split_ifs <;> omega
  simp only [if_neg hD, hD']
  by_cases hp : nK > 0
  · rw [if_pos hp]
    have hk : nK.toNat = nK.natAbs := by omega
    rw [hk]
    have hk0 : nK.natAbs ≠ 0 := by omega
    have ht := (unary_throws_iff (Diag.empty 1) (diag1 (d - nK.natAbs) fun _ => 1) (Diag.empty 1) nK.natAbs false (by rw [empty_size]; norm_num) (by rw [diag1_size]; omega)
      (by rw [empty_size]; norm_num) (by omega)).2 (by simp [empty_size, hk0])
    cases h : unary (Diag.empty 1) nK.natAbs (diag1 (d - nK.natAbs) fun _ => 1) (Diag.empty 1) false with
    | throw => exact absurd h ht
    | undef => unfold unary at h; simp only at h; split_ifs at h
    | ok T =>
      have hT := unary_ok h
      have w1 : WF T := by
        by_cases hdk : d = nK.natAbs
        · have hs : ∀ x, (T.diagonals x).size = 0 := by
            intro x; rw [hT]; simp only [hdk, Nat.sub_self]; split_ifs <;> simp [diag1_size, empty_size]
          exact ⟨by rw [hT]; rfl, by rw [hT]; rfl, fun x _ h => absurd (hs x) h, fun x _ h => absurd (hs x) h⟩
        · exact (unary_wf (nz := 0) (nm := d - nK.natAbs) (np := 0) rfl rfl rfl (by norm_num) (by omega) (by norm_num) (by omega) (by omega) h).1
      have hdims : T.dims = [d] := by rw [hT]; simp only [empty_size, diag1_size]; congr 1; omega
      refine ⟨T, rfl, ⟨by rw [hT], hdims, by rw [hT], w1, fun i hi j hj => ?_⟩, by rw [hT], fun i => by rw [hT]; rfl⟩
      rw [unary_entry h, diag1_size, empty_size]
      simp only [diag1, expE]
      by_cases hij : (i : ℤ) = j + nK
      · rw [if_pos hij]
        have : i = j + nK.natAbs := by omega
        simp [this]
        omega
      · rw [if_neg hij]
        have : ¬ i = j + nK.natAbs := by omega
        simp [this]
  · rw [if_neg hp]
    by_cases hz : nK = 0
    · rw [if_pos hz]
      subst hz
      obtain ⟨T, h1, h2, h3⟩ := diagonalOperator_ok d hd h0 fun _ => 1
      refine ⟨T, h1, h2.congr fun i _ j _ => ?_, by rw [unary_ok h1]; rfl, h3⟩
      simp [expE]
    · rw [if_neg hz]
      have hk : (-nK).toNat = nK.natAbs := by omega
      rw [hk]
      have hk0 : nK.natAbs ≠ 0 := by omega
      have ht := (unary_throws_iff (Diag.empty 1) (Diag.empty 1) (diag1 (d - nK.natAbs) fun _ => 1) nK.natAbs false (by rw [empty_size]; norm_num) (by rw [empty_size]; norm_num)
        (by rw [diag1_size]; omega) (by omega)).2 (by simp [empty_size, hk0])
      cases h : unary (Diag.empty 1) nK.natAbs (Diag.empty 1) (diag1 (d - nK.natAbs) fun _ => 1) false with
      | throw => exact absurd h ht
      | undef => unfold unary at h; simp only at h; split_ifs at h
      | ok T =>
        have hT := unary_ok h
        have w1 : WF T := by
          by_cases hdk : d = nK.natAbs
          · have hs : ∀ x, (T.diagonals x).size = 0 := by
              intro x; rw [hT]; simp only [hdk, Nat.sub_self]; split_ifs <;> simp [diag1_size, empty_size]
            exact ⟨by rw [hT]; rfl, by rw [hT]; rfl, fun x _ h => absurd (hs x) h, fun x _ h => absurd (hs x) h⟩
          · exact (unary_wf (nz := 0) (nm := 0) (np := d - nK.natAbs) rfl rfl rfl (by norm_num) (by norm_num) (by omega) (by omega) (by omega) h).1
        have hdims : T.dims = [d] := by rw [hT]; simp only [empty_size, diag1_size]; congr 1; omega
        refine ⟨T, rfl, ⟨by rw [hT], hdims, by rw [hT], w1, fun i hi j hj => ?_⟩, by rw [hT], fun i => by rw [hT]; rfl⟩
        rw [unary_entry h, diag1_size, empty_size]
        simp only [diag1, expE]
        by_cases hij : (i : ℤ) = j + nK
        · rw [if_pos hij]
          have : j = i + nK.natAbs := by omega
          simp [this]
          omega
        · rw [if_neg hij]
          have : ¬ j = i + nK.natAbs := by omega
          simp [this]

theorem expINKX_empty (d : ℕ) (nK : ℤ) (hn : d < nK.natAbs) : expINKX d nK = .ok emptyTri := by
  unfold expINKX
  have hD : ((d : ℤ) - (if nK > 0 then nK else -nK) < 0) := by split_ifs <;> omega
  simp only [if_pos hD]

/-- The frequencies of the particle. -/
noncomputable def Part.m (p : Part) : ℕ → ℂ := if p.exact then mainDiagonal p.fin p.omrec else fun _ => 0

theorem furnished_pop {d k : ℕ} {T : Tri} {E : Dens} (h : TriOK d T E) (hk : T.diffs = [k]) (hf : ∀ i, (T.freqs i).size = 0) (m : ℕ → ℂ) : POp d m k (furnishWithFreqs T m) E := by
  obtain ⟨h1, h2, h3, h4, h5⟩ := furnish_fields T m
  refine ⟨⟨by rw [h1, h.rank], by rw [h2, h.dims], by rw [h4, h.time], ?_, fun i hi j hj => by rw [furnish_entry, h.entry i hi j hj]⟩, by rw [h3, hk],
    Freqs.furnish h.wf h.rank h.dims hk (fun x _ => hf x) m⟩
  obtain ⟨a, b, c, e⟩ := h.wf
  exact ⟨by rw [h2, h1, a], by rw [h3, h1, b], by rw [h1, h2, h3, h5]; exact c, by rw [h1, h3, h5]; exact e⟩

theorem unfurnished_pop {d k : ℕ} {T : Tri} {E : Dens} (h : TriOK d T E) (hk : T.diffs = [k]) (hf : ∀ i, (T.freqs i).size = 0) : POp d (fun _ => 0) k T E :=
  ⟨h, hk, Freqs.none fun x _ => hf x⟩

variable {p : Part}

theorem expOf_ok (hp : p.fin < 63) (nK : ℤ) (hn : nK.natAbs ≤ 2 ^ p.fin) : ∃ T, expOf p nK = .ok T ∧ POp (2 ^ p.fin) p.m nK.natAbs T (expE nK) := by
  obtain ⟨T, h1, h2, h3, h4⟩ := expINKX_ok (2 ^ p.fin) (Nat.pow_lt_pow_right (by norm_num) hp) (by positivity) nK hn
  unfold expOf Part.m
  rw [h1]
  by_cases he : p.exact = true
  · simp only [he, if_true, Outcome.bind]
    exact ⟨_, rfl, furnished_pop h2 h3 h4 _⟩
  · simp only [he, Bool.false_eq_true, if_false, Outcome.bind]
    exact ⟨_, rfl, unfurnished_pop h2 h3 h4⟩

theorem cosOf_ok (hp : p.fin < 63) (nK : ℤ) (hn : nK.natAbs ≤ 2 ^ p.fin) : ∃ T, cosOf p nK = .ok T ∧ POp (2 ^ p.fin) p.m nK.natAbs T (fun i j => 1 / 2 * (expE nK i j + expE (-nK) i j)) := by
  obtain ⟨T, h1, h2⟩ := expOf_ok hp nK hn
  obtain ⟨S, g1, g2⟩ := expOf_ok hp (-nK) (by omega)
  rw [Int.natAbs_neg] at g2
  obtain ⟨R, r1, r2⟩ := h2.add_same g2
  exact ⟨_, by unfold cosOf; rw [h1, g1]; simp only [Outcome.bind]; rw [r1], r2.scale _⟩

theorem sinOf_ok (hp : p.fin < 63) (nK : ℤ) (hn : nK.natAbs ≤ 2 ^ p.fin) :
    ∃ T, sinOf p nK = .ok T ∧ POp (2 ^ p.fin) p.m nK.natAbs T (fun i j => 1 / (2 * Complex.I) * (expE nK i j - expE (-nK) i j)) := by
  obtain ⟨T, h1, h2⟩ := expOf_ok hp nK hn
  obtain ⟨S, g1, g2⟩ := expOf_ok hp (-nK) (by omega)
  rw [Int.natAbs_neg] at g2
  obtain ⟨R, r1, r2⟩ := h2.sub_same g2
  exact ⟨_, by unfold sinOf; rw [h1, g1]; simp only [Outcome.bind]; rw [r1], r2.scale _⟩

end CppQED.ParticleEl
