import Verif.Lemmas.InteractionFrees

/-! # The operators the interactions are composed of -/

namespace CppQED.Interactions
open CppQED.Elem CppQED.Tridiag CppQED.ModeEl CppQED.Spec
open CppQED.ParticleEl (POp DOp)
open ComplexConjugate

/-- The matrix elements of operators of one and two systems. -/
def lift (A : Dens) (i j : NIdx) : ℂ := A (i.getD 0 0) (j.getD 0 0)
@[inherit_doc lift] def lift2 (A B : Dens) (i j : NIdx) : ℂ := A (i.getD 0 0) (j.getD 0 0) * B (i.getD 1 0) (j.getD 1 0)

/-- Operators which are ready to be multiplied: in the interaction picture all the diagonals have frequencies, in the Schrödinger picture they are constant. -/
def Good (b : Bool) (T : Tri) (M : NIdx → ℂ) : Prop := (b = true → Pure T) ∧ (b = false → Static T M)

theorem Good.congr {b : Bool} {T : Tri} {M N : NIdx → ℂ} (h : Good b T M) (he : ∀ i ∈ natBox T.dims, ∀ j ∈ natBox T.dims, M i - M j = N i - N j) : Good b T N :=
  ⟨h.1, fun hb => (h.2 hb).congr he⟩
theorem Good.scale {b : Bool} {T : Tri} {M : NIdx → ℂ} (h : Good b T M) (c : ℂ) : Good b (Tridiag.scale c T) M := ⟨fun hb => (h.1 hb).scale c, fun hb => (h.2 hb).scale c⟩
theorem Good.dagger {b : Bool} {T : Tri} {M : NIdx → ℂ} (h : Good b T M) : Good b (hermitianConjugate T) M := ⟨fun hb => (h.1 hb).dagger, fun hb => (h.2 hb).dagger⟩

theorem op_of_pop {d k : ℕ} {m : ℕ → ℂ} {T : Tri} {E : Dens} (h : POp d m k T E) : Op [d] (phases [m]) T (lift E) := by
  refine ⟨h.ok.wf, h.ok.dims, h.ok.time, h.freqs.congr ?_, ?_⟩
  · rw [h.ok.dims]
    intro i hi j hj
    obtain ⟨a, rfl⟩ := List.length_eq_one_iff.1 (length_of_mem hi)
    obtain ⟨b, rfl⟩ := List.length_eq_one_iff.1 (length_of_mem hj)
    simp [phases]
  · intro i hi j hj
    obtain ⟨a, rfl⟩ := List.length_eq_one_iff.1 (length_of_mem hi)
    obtain ⟨b, rfl⟩ := List.length_eq_one_iff.1 (length_of_mem hj)
    rw [mem_natBox_one] at hi hj
    exact h.ok.entry a hi b hj

theorem furnish_pure {T : Tri} (w : WF T) (hr : T.rank = 1) {d k : ℕ} (hd : T.dims = [d]) (hk : T.diffs = [k]) (h0 : (T.diagonals 0).size = 0) (m : ℕ → ℂ) : Pure (furnishWithFreqs T m) := by
  intro x hx hp
  obtain ⟨f1, f2, f3, f4, f5⟩ := furnish_fields T m
  unfold Present at hp
  rw [f1, hr] at hx hp
  rw [f5] at hp
  have hx3 : x < 3 := by simpa using hx
  have key : ∀ y < 3, (T.diagonals y).size ≠ 0 → 0 < d - k := by
    intro y hy hs
    have : y = 0 ∨ y = 1 ∨ y = 2 := by omega
    have hy0 : y ≠ 0 := by rintro rfl; exact hs h0
    have h1 := w.shape y (by rw [hr]; simpa using hy) hs
    rw [hr, hd, hk, digits3_one y hy] at h1
    have : (T.diagonals y).size = d - k := by
      rw [Diag.size, h1]
      have : y = 1 ∨ y = 2 := by omega
      rcases this with rfl | rfl <;> simp [diagShape]
    omega
  have sz : 0 < d - k := hp.elim (key x hx3) (key _ (by
    have : x = 0 ∨ x = 1 ∨ x = 2 := by omega
    rcases this with rfl | rfl | rfl <;> decide))
  have hx0 : x ≠ 0 := by
    rintro rfl
    rw [show transposeIndex 1 0 = 0 by decide] at hp
    simp [h0] at hp
  unfold furnishWithFreqs
  rw [hd, hk]
  simp only [List.getD_cons_zero, if_pos sz]
  have : x = 1 ∨ x = 2 := by omega
  rcases this with rfl | rfl <;> simp [Diag.size] <;> omega

theorem static_none {T : Tri} : Static T (phases [fun _ => 0]) := by
  have : phases [fun _ => 0] = fun _ => 0 := by
    funext i; rcases i with - | ⟨a, i⟩ <;> simp [phases]
  rw [this]; exact static_zero T

/-- `aop`. -/
theorem aop_op (m : ModePtr) (hd : m.dim < 2 ^ 63) (h0 : 0 < m.dim) :
    ∃ T, aop m = .ok T ∧ Op [m.dim] (phases [m.w]) T (lift aOp) ∧ T.diffs = [1] ∧ Good m.exact.isSome T (phases [m.w]) := by
  obtain ⟨T, h1, h2, h3⟩ := aop_ok m.dim hd h0
  have hT := unary_ok h1
  have hdf : T.diffs = [1] := by rw [hT]
  have hz : (T.diagonals 0).size = 0 := by rw [hT]; simp [empty_size]
  unfold aop aopOf ModePtr.w
  rw [h1]
  cases hx : m.exact with
  | none => exact ⟨T, rfl, op_of_pop (ParticleEl.unfurnished_pop h2 hdf h3), hdf, fun h => by simp at h, fun _ => static_none⟩
  | some z =>
    obtain ⟨zI, ω⟩ := z
    refine ⟨_, rfl, op_of_pop (ParticleEl.furnished_pop h2 hdf h3 _), by rw [(furnish_fields T _).2.2.1, hdf], fun _ => furnish_pure h2.wf h2.rank h2.dims hdf hz _, fun h => by simp at h⟩

/-- Only the main diagonal is present. -/
theorem dop_present {d : ℕ} {T : Tri} {E : Dens} (h : DOp d T E) {x : ℕ} (hx3 : x < 3) (hp : Present T x) : x = 0 := by
  by_contra h0
  unfold Present at hp
  rw [h.ok.rank] at hp
  have : x = 1 ∨ x = 2 := by omega
  rcases this with rfl | rfl
  · rw [show transposeIndex 1 1 = 2 by decide] at hp
    simp [h.diag] at hp
  · rw [show transposeIndex 1 2 = 1 by decide] at hp
    simp [h.diag] at hp

theorem static_diag {d : ℕ} {T : Tri} {E : Dens} (h : DOp d T E) (M : NIdx → ℂ) : Static T M := by
  intro x hx hp i hi j hj ho
  rw [h.ok.rank] at hx
  have hx3 : x < 3 := by simpa using hx
  have := dop_present h hx3 hp
  subst this
  rw [onDiags_zero T.rank T.diffs i j (by rw [← digits3_zero]; exact ho)]

/-- The sum of diagonal operators. -/
theorem dop_add_op {d : ℕ} {T S : Tri} {E F : Dens} (h : DOp d T E) (g : DOp d S F) (w : ℕ → ℂ) :
    ∃ R, Tridiag.add T S = .ok R ∧ Op [d] (phases [w]) R (lift fun i j => E i j + F i j) ∧ R.diffs = [0] ∧ Static R (phases [w]) := by
  obtain ⟨R, h1, h2⟩ := h.add (g.pop w)
  refine ⟨R, h1, op_of_pop h2, h2.diffs, ?_⟩
  intro x hx hp i hi j hj ho
  have hr : R.rank = 1 := h2.ok.rank
  rw [hr] at hx
  have hx3 : x < 3 := by simpa using hx
  have : x = 0 := (add_present h1 (by rw [h.ok.rank, g.ok.rank]) (by rw [h.ok.rank]; exact hx) hp).elim (dop_present h hx3) (dop_present g hx3)
  subst this
  rw [onDiags_zero R.rank R.diffs i j (by rw [← digits3_zero]; exact ho)]

/-- The sum of operators with the same offsets. -/
theorem good_add {ds : List ℕ} {M : NIdx → ℂ} {T S : Tri} {E F : NIdx → NIdx → ℂ} {b : Bool} (h : Op ds M T E) (g : Op ds M S F) (e : T.diffs = S.diffs) (gT : Good b T M) (gS : Good b S M) :
    ∃ R, Tridiag.add T S = .ok R ∧ Op ds M R (fun i j => E i j + F i j) ∧ R.diffs = T.diffs ∧ Good b R M := by
  obtain ⟨R, h1, h2, h3⟩ := h.add_same g e
  refine ⟨R, h1, h2, h3, fun hb => (gT.1 hb).add (gS.1 hb) (by rw [h.rank, g.rank]) h1, fun hb => ?_⟩
  intro x hx hp i hi j hj ho
  have hr : R.rank = T.rank := by rw [h2.rank, h.rank]
  have hs : S.rank = T.rank := by rw [g.rank, h.rank]
  have hdT : R.dims = T.dims := by rw [h2.dims, h.dims]
  have hdS : R.dims = S.dims := by rw [h2.dims, g.dims]
  rw [hr] at hx ho
  rw [h3] at ho
  rcases add_present h1 hs hx hp with hp | hp
  · exact gT.2 hb x hx hp i (hdT ▸ hi) j (hdT ▸ hj) ho
  · rw [e, ← hs] at ho
    exact gS.2 hb x (hs ▸ hx) hp i (hdS ▸ hi) j (hdS ▸ hj) ho

/-- `nop`, in whatever picture. -/
theorem nop_op (m : ModePtr) (hd : m.dim < 2 ^ 63) (h0 : 0 < m.dim) (w : ℕ → ℂ) :
    ∃ T, nop m = .ok T ∧ DOp m.dim T nOp ∧ Op [m.dim] (phases [w]) T (lift nOp) ∧ T.diffs = [0] ∧ Static T (phases [w]) := by
  obtain ⟨T, h1, h2⟩ := ParticleEl.diagonal_dop m.dim hd h0 (mainDiagonal 1 0)
  have h3 : DOp m.dim T nOp := ⟨h2.ok.congr fun i _ j _ => by simp [mainDiagonal, kerrDiagonal, nOp], h2.diffs, h2.freqs, h2.diag⟩
  exact ⟨T, h1, h3, op_of_pop (h3.pop w), h3.diffs, static_diag h3 _⟩

/-- `splus` and `sminus`. -/
theorem splus_op (s : SpinPtr) (hd : s.dim < 2 ^ 63) (h0 : 0 < s.dim) :
    ∃ T, splus s = .ok T ∧ Op [s.dim] (phases [s.w]) T (lift (sPlus s.twoS)) ∧ T.diffs = [1] ∧ Good s.exact T (phases [s.w]) := by
  obtain ⟨T, h1, h2⟩ := SpinEl.splus_static s.dim s.twoS hd h0
  have hT := unary_ok h1
  have hdf : T.diffs = [1] := by rw [hT]
  have hz : (T.diagonals 0).size = 0 := by rw [hT]; simp [empty_size]
  have hf : ∀ i, (T.freqs i).size = 0 := by intro i; rw [hT]; rfl
  unfold splus SpinPtr.w
  rw [h1]
  cases hx : s.exact with
  | false =>
    simp only [Bool.false_eq_true, if_false, Outcome.bind]
    exact ⟨T, rfl, op_of_pop (ParticleEl.unfurnished_pop h2.ok hdf hf), hdf, fun h => by simp at h, fun _ => static_none⟩
  | true =>
    simp only [if_true, Outcome.bind]
    have e : ∀ i ∈ natBox [s.dim], ∀ j ∈ natBox [s.dim], phases [fun i => s.z * ((i : ℂ) - s.twoS / 2)] i - phases [fun i => s.z * ((i : ℂ) - s.twoS / 2)] j =
        phases [mainDiagonal s.z 0] i - phases [mainDiagonal s.z 0] j := by
      intro i hi j hj
      obtain ⟨a, rfl⟩ := List.length_eq_one_iff.1 (length_of_mem hi)
      obtain ⟨b, rfl⟩ := List.length_eq_one_iff.1 (length_of_mem hj)
      simp [phases, mainDiagonal, kerrDiagonal]
      ring
    exact ⟨_, rfl, (op_of_pop (ParticleEl.furnished_pop h2.ok hdf hf _)).congrM e, by rw [(furnish_fields T _).2.2.1, hdf], fun _ => furnish_pure h2.ok.wf h2.ok.rank h2.ok.dims hdf hz _,
      fun h => by simp at h⟩

theorem sminus_op (s : SpinPtr) (hd : s.dim < 2 ^ 63) (h0 : 0 < s.dim) :
    ∃ T, sminus s = .ok T ∧ Op [s.dim] (phases [s.w]) T (lift (sMinus s.twoS)) ∧ T.diffs = [1] ∧ Good s.exact T (phases [s.w]) := by
  obtain ⟨T, h1, h2, h3, h4⟩ := splus_op s hd h0
  unfold sminus
  rw [h1]
  refine ⟨_, rfl, h2.dagger.congr fun i _ j _ => ?_, h3, h4.dagger⟩
  simp only [lift, sPlus, sMinus]
  split_ifs <;> simp

/-- `xop`. -/
theorem xop_op (m : ModePtr) (hd : m.dim < 2 ^ 63) (h0 : 0 < m.dim) :
    ∃ T, xop m = .ok T ∧ Op [m.dim] (phases [m.w]) T (lift quadOp) ∧ T.diffs = [1] ∧ Good m.exact.isSome T (phases [m.w]) := by
  obtain ⟨T, h1, h2, h3, h4⟩ := aop_op m hd h0
  obtain ⟨R, r1, r2, r3, r4⟩ := good_add h2 h2.dagger rfl h4 h4.dagger
  unfold xop
  rw [h1]
  simp only [Outcome.bind]
  rw [show plusHC T = .ok R from r1]
  refine ⟨_, rfl, (r2.scale _).congr fun i _ j _ => ?_, by rw [← h3]; exact r3, r4.scale _⟩
  simp only [lift, quadOp, conj_aOp]
  ring

/-- `sx`. -/
theorem sx_op (s : SpinPtr) (hd : s.dim < 2 ^ 63) (h0 : 0 < s.dim) :
    ∃ T, sx s = .ok T ∧ Op [s.dim] (phases [s.w]) T (lift (sX s.twoS)) ∧ T.diffs = [1] ∧ Good s.exact T (phases [s.w]) := by
  obtain ⟨T, h1, h2, h3, h4⟩ := splus_op s hd h0
  obtain ⟨S, g1, g2, g3, g4⟩ := sminus_op s hd h0
  obtain ⟨R, r1, r2, r3, r4⟩ := good_add h2 g2 (by rw [h3, g3]) h4 g4
  unfold sx
  rw [h1, g1]
  simp only [Outcome.bind]
  rw [r1]
  refine ⟨_, rfl, (r2.scale _).congr fun i _ j _ => ?_, by rw [← h3]; exact r3, r4.scale _⟩
  simp only [lift, sX]
  ring

/-! ## Products -/

theorem kron_lift (A B : Dens) (i j : NIdx) : kron 1 (lift A) (lift B) i j = lift2 A B i j := by
  have e1 : ∀ i : NIdx, (i.take 1).getD 0 0 = i.getD 0 0 := by intro i; rcases i with - | ⟨a, i⟩ <;> simp
  have e2 : ∀ i : NIdx, (i.drop 1).getD 0 0 = i.getD 1 0 := by intro i; rcases i with - | ⟨a, i⟩ <;> simp [List.getD_eq_getElem?_getD]
  simp only [kron, lift, lift2, e1, e2]

theorem phases_two {d0 d1 : ℕ} (w0 w1 : ℕ → ℂ) {i : NIdx} (hi : i ∈ natBox [d0, d1]) : phases [w0] (i.take 1) + phases [w1] (i.drop 1) = phases [w0, w1] i := by
  have := length_of_mem hi
  rcases i with - | ⟨a, - | ⟨b, i⟩⟩ <;> simp at this
  subst this
  simp [phases]

/-- The product of two operators in the same kind of picture. -/
theorem product_op {d0 d1 : ℕ} {w0 w1 : ℕ → ℂ} {T0 T1 : Tri} {A B : Dens} {b : Bool} (h0 : Op [d0] (phases [w0]) T0 (lift A)) (h1 : Op [d1] (phases [w1]) T1 (lift B))
    (g0 : Good b T0 (phases [w0])) (g1 : Good b T1 (phases [w1])) :
    ∃ P, product T0 T1 = .ok P ∧ Op [d0, d1] (phases [w0, w1]) P (lift2 A B) ∧ P.diffs = T0.diffs ++ T1.diffs ∧ Good b P (phases [w0, w1]) ∧
      ((∀ x < 3 ^ T0.rank, (T0.freqs x).size = 0) → ∀ x < 3 ^ P.rank, (P.freqs x).size = 0) := by
  obtain ⟨P, p1, p2, p3, p4, p5, p6⟩ := h0.product h1 (by
    cases b with
    | true => exact Or.inl ⟨g0.1 rfl, g1.1 rfl⟩
    | false => exact Or.inr ⟨g0.2 rfl, g1.2 rfl⟩)
  have p2' : Op [d0, d1] (fun i => phases [w0] (i.take 1) + phases [w1] (i.drop 1)) P (kron 1 (lift A) (lift B)) := p2
  have e : ∀ i ∈ natBox [d0, d1], ∀ j ∈ natBox [d0, d1], phases [w0] (i.take 1) + phases [w1] (i.drop 1) - (phases [w0] (j.take 1) + phases [w1] (j.drop 1)) =
      phases [w0, w1] i - phases [w0, w1] j := by
    intro i hi j hj
    rw [phases_two w0 w1 hi, phases_two w0 w1 hj]
  refine ⟨P, p1, (p2'.congrM e).congr fun i _ j _ => kron_lift A B i j, p3, ⟨fun hb => p4 ⟨g0.1 hb, g1.1 hb⟩, fun hb => ?_⟩, p6⟩
  have p5' : Static P (fun i => phases [w0] (i.take 1) + phases [w1] (i.drop 1)) := p5 ⟨g0.2 hb, g1.2 hb⟩
  exact p5'.congr (by rw [p2'.dims]; exact e)

theorem tensor_up (A B : Dens) (i j : NIdx) : tensor A B (up i) (up j) = lift2 A B i j := by
  simp only [tensor, lift2, q_up]

end CppQED.Interactions
