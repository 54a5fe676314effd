import Verif.Props.Particle
import Verif.Props.ModeAverages
import Verif.Props.FFT

/-!
# The dynamics and the averages of the particle: C24, C75
-/

namespace CppQED.ParticleEl
open CppQED.Elem CppQED.Tridiag CppQED.ModeEl CppQED.Spec Matrix
open ComplexConjugate ComplexOrder

/-! ## The Hamiltonian -/

/-- An operator without diagonals, of dimension 0. -/
structure EmptyOp (T : Tri) : Prop where
  rank : T.rank = 1
  dims : T.dims = [0]
  diffs : T.diffs = [0]
  diagonals : ∀ x, (T.diagonals x).size = 0
  freqs : ∀ x, (T.freqs x).size = 0

theorem emptyTri_empty : EmptyOp emptyTri := ⟨rfl, rfl, rfl, fun _ => rfl, fun _ => rfl⟩

theorem EmptyOp.scale {T : Tri} (h : EmptyOp T) (c : ℂ) : EmptyOp (Tridiag.scale c T) := ⟨h.rank, h.dims, h.diffs, h.diagonals, h.freqs⟩

theorem EmptyOp.furnish {T : Tri} (h : EmptyOp T) (m : ℕ → ℂ) : furnishWithFreqs T m = T := by
  unfold furnishWithFreqs
  simp [h.dims]

theorem EmptyOp.apply {T : Tri} (h : EmptyOp T) (psi D : NIdx → ℂ) (n : ℕ) : Tridiag.apply T psi D [n] = D [n] :=
  apply_outside _ (by rw [h.rank, h.dims]; rfl) (by rw [h.rank, h.diffs]; rfl) _ _ _ (by rw [h.dims, mem_natBox_one]; omega)

theorem EmptyOp.apply_propagate {T : Tri} (h : EmptyOp T) (t : ℝ) (psi D : NIdx → ℂ) (n : ℕ) : Tridiag.apply (propagate T t) psi D [n] = D [n] :=
  apply_outside _ (by rw [propagate_rank, propagate_dims, h.rank, h.dims]; rfl) (by rw [propagate_rank, propagate_diffs, h.rank, h.diffs]; rfl) _ _ _
    (by rw [propagate_dims, h.dims, mem_natBox_one]; omega)

theorem add_empty {T S : Tri} (hr : T.rank = 1) {k : ℕ} (hk : T.diffs = [k]) (h : EmptyOp S) : Tridiag.add T S = .ok T := by
  unfold Tridiag.add
  have hm : mergeDiffs S.diffs T.diffs = some T.diffs := by
    rw [h.diffs, hk]
    by_cases h1 : k = 0
    · subst h1; simp [mergeDiffs, mergeDiff]
    · simp [mergeDiffs, mergeDiff, h1, Ne.symm h1]
  rw [hm]
  have md : ∀ x, mergeDiag (S.diagonals x) (T.diagonals x) = .ok (T.diagonals x) := fun x => by unfold mergeDiag; rw [if_neg (not_not.2 (h.diagonals x))]
  have mf : ∀ x, mergeFreq (S.freqs x) (T.freqs x) = .ok (T.freqs x) := fun x => by unfold mergeFreq; rw [if_neg (not_not.2 (h.freqs x))]
  rw [show 3 ^ T.rank = 3 by rw [hr]; rfl]
  simp only [mergeAll, md, mf, Outcome.bind, Function.update_eq_self, Function.update_idem]

/-- The potential in the Hamiltonian. -/
noncomputable def potE (vClass : ℝ) (mf : ModeFunction) : Dens := fun i j =>
  if isComplex mf.type then 0 else 1 / (2 * Complex.I) * (vClass * (if mf.type = .sin then -1 else 1) * (1 / 2 * (expE (2 * mf.nK) i j + expE (-(2 * mf.nK)) i j)))

theorem cosNKX_ok (d : ℕ) (hd : d < 2 ^ 63) (h0 : 0 < d) (nK : ℤ) : ∃ T, cosNKX d nK = .ok T ∧
    ((TriOK d T (fun i j => 1 / 2 * (expE nK i j + expE (-nK) i j)) ∧ ∀ i, (T.freqs i).size = 0) ∨ (EmptyOp T ∧ ∀ i < d, ∀ j < d, expE nK i j = 0 ∧ expE (-nK) i j = 0)) := by
  by_cases hn : nK.natAbs ≤ d
  · obtain ⟨T, a1, a2, a3, a4⟩ := expINKX_ok d hd h0 nK hn
    obtain ⟨S, b1, b2, b3, b4⟩ := expINKX_ok d hd h0 (-nK) (by omega)
    have pT := unfurnished_pop a2 a3 a4
    have pS := unfurnished_pop b2 b3 b4
    rw [Int.natAbs_neg] at pS
    obtain ⟨R, r1, r2⟩ := pT.add_same pS
    refine ⟨_, by unfold cosNKX; rw [a1, b1]; simp only [Outcome.bind]; rw [r1], Or.inl ⟨(r2.scale _).ok, ?_⟩⟩
    intro i
    have hf := (add_ok r1).2.2.2.2.2
    change (R.freqs i).size = 0
    by_cases hi : i < 3 ^ T.rank
    · have := hf i hi
      unfold mergeFreq at this
      rw [if_neg (not_not.2 (b4 i))] at this
      injection this with this
      rw [← this]; exact a4 i
    · have hh : R.freqs i = T.freqs i := by
        unfold Tridiag.add at r1
        split at r1
        · cases r1
        · cases h1 : mergeAll mergeDiag S.diagonals T.diagonals (3 ^ T.rank) with
          | throw => rw [h1] at r1; cases r1
          | undef => rw [h1] at r1; cases r1
          | ok ds =>
            rw [h1] at r1
            simp only [Outcome.bind] at r1
            cases h2 : mergeAll mergeFreq S.freqs T.freqs (3 ^ T.rank) with
            | throw => rw [h2] at r1; cases r1
            | undef => rw [h2] at r1; cases r1
            | ok fs =>
              rw [h2] at r1
              simp only [Outcome.ok.injEq] at r1
              rw [← r1]
              exact (mergeAll_ok h2).2 i (by omega)
      rw [hh]; exact a4 i
  · have e1 := expINKX_empty d nK (by omega)
    have e2 := expINKX_empty d (-nK) (by omega)
    refine ⟨_, by unfold cosNKX; rw [e1, e2]; simp only [Outcome.bind]; rw [add_empty (k := 0) rfl rfl emptyTri_empty], Or.inr ⟨emptyTri_empty.scale _, fun i hi j hj => ?_⟩⟩
    unfold expE
    rw [if_neg (by omega), if_neg (by omega)]
    exact ⟨rfl, rfl⟩

theorem hOverI_ok (d : ℕ) (hd : d < 2 ^ 63) (h0 : 0 < d) (v : ℝ) (mf : ModeFunction) : ∃ T, hOverI d v mf = .ok T ∧
    ((TriOK d T (potE v mf) ∧ ∀ i, (T.freqs i).size = 0) ∨ (EmptyOp T ∧ ∀ i < d, ∀ j < d, potE v mf i j = 0)) := by
  unfold hOverI potE
  by_cases hc : isComplex mf.type = true
  · simp only [hc, Bool.not_true, Bool.false_eq_true, and_false, if_false, if_true]
    exact ⟨_, rfl, Or.inr ⟨emptyTri_empty, by simp⟩⟩
  · simp only [Bool.not_eq_true] at hc
    simp only [hc, Bool.not_false, and_true, Bool.false_eq_true, if_false]
    by_cases hv : v = 0
    · simp only [hv, ne_eq, not_true_eq_false, if_false]
      exact ⟨_, rfl, Or.inr ⟨emptyTri_empty, fun _ _ _ _ => by simp⟩⟩
    · simp only [ne_eq, hv, not_false_eq_true, if_true]
      obtain ⟨T, h1, h2⟩ := cosNKX_ok d hd h0 (2 * mf.nK)
      rw [h1]
      refine ⟨_, rfl, ?_⟩
      rcases h2 with ⟨a, b⟩ | ⟨a, b⟩
      · exact Or.inl ⟨(a.scale _).scale _, b⟩
      · exact Or.inr ⟨(a.scale _).scale _, fun i hi j hj => by rw [(b i hi j hj).1, (b i hi j hj).2]; simp⟩

/-- The average of the squared absolute value of the mode function over a period. -/
noncomputable def meanIntensity (t : MFT) : ℝ := if isComplex t then 1 else 1 / 2

/-- The potential `vClass |f(x)|²`, with the energy scale such that its average over a period vanishes. -/
noncomputable def lightShift (vClass : ℝ) (mf : ModeFunction) (x : ℝ) : ℂ := vClass * (Complex.normSq (waveFunction mf x) - meanIntensity mf.type)

theorem potE_eq (fin : ℕ) (v : ℝ) (mf : ModeFunction) (i j : ℕ) : potE v mf i j = multiplication fin (lightShift v mf) i j / Complex.I := by
  have hx : ∀ x, lightShift v mf x = (v * ((coef mf.type mf.type).1 - meanIntensity mf.type)) + (v * (coef mf.type mf.type).2.1) * Complex.exp (Complex.I * ((2 * mf.nK : ℤ) * x)) +
      (v * (coef mf.type mf.type).2.2) * Complex.exp (Complex.I * ((-(2 * mf.nK) : ℤ) * x)) := by
    intro x
    unfold lightShift
    rw [← Complex.mul_conj, mul_comm (waveFunction mf x), composition_coef]
    ring
  have hm : multiplication fin (lightShift v mf) i j = _ := (congrArg (fun f => multiplication fin f i j) (funext hx)).trans (multiplication_trig fin (2 * mf.nK) _ _ _ i j)
  rw [hm]
  unfold potE meanIntensity
  have I2 : 1 / (2 * Complex.I) = -Complex.I / 2 := by rw [one_div, mul_inv, Complex.inv_I]; ring
  rw [I2, div_eq_mul_inv _ Complex.I, Complex.inv_I]
  cases mf.type <;> simp [isComplex, coef] <;> ring

theorem noLi' (d : ℕ) (ha : Option (ℝ → Vec → Vec → ℝ → Vec)) (ex : Option (ℝ → ℕ → ℂ)) (b : Bool) : LiIs ⟨d, ha, ex, b, none⟩ [] := by unfold LiIs; rfl

theorem exactDiagonal_is (fin : ℕ) (omrec t : ℝ) (n : ℕ) : exactDiagonal fin omrec t n = uDiag (mainDiagonal fin omrec) t n := by
  unfold exactDiagonal uDiag mainDiagonal
  congr 1; ring

theorem kinetic_eq (fin : ℕ) (omrec : ℝ) (i : ℕ) : mainDiagonal fin omrec i = -(omrec * (waveNumber fin i : ℂ) ^ 2 / Complex.I) := by
  unfold mainDiagonal
  rw [gridK_eq, div_eq_mul_inv, Complex.inv_I]; ring

/-- What is made by the maker functions. -/
def Simulates (p : Pars) (o : Outcome Element) (H : Dens) : Prop := ∃ e, o = .ok e ∧ e.dim = 2 ^ p.fin ∧ e.exApplicable = true ∧ Generates e H []

theorem pow_lt {fin : ℕ} (h : fin < 63) : 2 ^ fin < 2 ^ 63 := Nat.pow_lt_pow_right (by norm_num) h

/-- **C75.** The free particle, in all pictures. -/
theorem make_simulates (p : Pars) (hp : p.fin < 63) (qmp : Picture) : Simulates p (make p qmp) (particleH p.fin p.omrec fun _ => 0) := by
  have hz : ∀ i j, multiplication p.fin (fun _ => 0) i j = 0 := by intro i j; simp [multiplication]
  unfold make
  split_ifs with h
  · obtain ⟨T, h1, h2⟩ := diagonal_dop (2 ^ p.fin) (pow_lt hp) (by positivity) (mainDiagonal p.fin (-p.omrec))
    refine ⟨_, by unfold particleSch; rw [h1]; rfl, rfl, rfl, ?_⟩
    have := generates_of (e := ⟨2 ^ p.fin, some (TriHam.addContribution ⟨false, [T]⟩), none, true, none⟩) (w := fun _ => 0)
      (V := fun i j => if i = j then mainDiagonal p.fin (-p.omrec) i else 0) (J := []) (by
        unfold HaIs
        intro t psi dpsidt t0
        funext n
        rw [Pi.add_apply, mulVec_ket]
        simp only [ket, TriHam.addContribution, List.foldl_cons, List.foldl_nil, Bool.false_eq_true, if_false, ip_diag]
        rw [apply_static h2.ok _ _ _ n.2]; rfl) (by unfold ExIs; intro n _; rfl) (noLi' _ _ _ _) (by simp)
    convert this using 1
    funext i j
    unfold particleH
    rw [hz]
    split_ifs with hij
    · rw [kinetic_eq]; push_cast; ring
    · simp
  · refine ⟨_, rfl, rfl, rfl, ?_⟩
    have := generates_of (e := ⟨2 ^ p.fin, none, some (exactDiagonal p.fin p.omrec), true, none⟩) (w := mainDiagonal p.fin p.omrec) (V := fun _ _ => 0) (J := []) (by
        unfold HaIs; intro i _ j _; rfl) (by unfold ExIs; intro t n _; exact exactDiagonal_is _ _ _ _) (noLi' _ _ _ _) (by simp)
    convert this using 1
    funext i j
    unfold particleH
    rw [hz]
    split_ifs with hij
    · rw [kinetic_eq]; ring
    · simp

/-- **C75.** The pumped particle moves in the potential of its mode function, in all pictures and for every wave number. -/
theorem makePumped_simulates (p : Pars) (hp : p.fin < 63) (qmp : Picture) :
    Simulates p (makePumped p qmp) (particleH p.fin p.omrec (lightShift p.vClass ⟨p.modePart, p.kPart⟩)) := by
  obtain ⟨T, t1, t2⟩ := hOverI_ok (2 ^ p.fin) (pow_lt hp) (by positivity) p.vClass ⟨p.modePart, p.kPart⟩
  unfold makePumped
  split_ifs with h
  · obtain ⟨S, h1, h2⟩ := diagonal_dop (2 ^ p.fin) (pow_lt hp) (by positivity) (mainDiagonal p.fin (-p.omrec))
    have hR : ∃ R, Tridiag.add S T = .ok R ∧ TriOK (2 ^ p.fin) R (fun i j => (if i = j then mainDiagonal p.fin (-p.omrec) i else 0) + potE p.vClass ⟨p.modePart, p.kPart⟩ i j) := by
      rcases t2 with ⟨a, b⟩ | ⟨a, b⟩
      · obtain ⟨k, hk⟩ := a.diffs
        obtain ⟨R, r1, r2⟩ := h2.add (unfurnished_pop a hk b)
        exact ⟨R, r1, r2.ok⟩
      · exact ⟨S, add_empty h2.ok.rank h2.diffs a, h2.ok.congr fun i hi j hj => by rw [b i hi j hj, add_zero]⟩
    obtain ⟨R, r1, r2⟩ := hR
    refine ⟨_, by unfold pumpedParticleSch; rw [h1, t1]; simp only [Outcome.bind]; rw [r1], rfl, rfl, ?_⟩
    have := generates_of (e := ⟨2 ^ p.fin, some (TriHam.addContribution ⟨false, [R]⟩), none, true, none⟩) (w := fun _ => 0)
      (V := fun i j => (if i = j then mainDiagonal p.fin (-p.omrec) i else 0) + potE p.vClass ⟨p.modePart, p.kPart⟩ i j) (J := []) (by
        unfold HaIs
        intro t psi dpsidt t0
        funext n
        rw [Pi.add_apply, mulVec_ket]
        simp only [ket, TriHam.addContribution, List.foldl_cons, List.foldl_nil, Bool.false_eq_true, if_false]
        rw [apply_static r2 _ _ _ n.2]
        simp [interactionPicture, arr1]) (by unfold ExIs; intro n _; rfl) (noLi' _ _ _ _) (by simp)
    convert this using 1
    funext i j
    unfold particleH
    rw [potE_eq p.fin]
    split_ifs with hij
    · rw [kinetic_eq]; push_cast; ring
    · ring
  · refine ⟨_, by unfold pumpedParticle; rw [t1]; rfl, rfl, rfl, ?_⟩
    have := generates_of (e := ⟨2 ^ p.fin, some (TriHam.addContribution ⟨true, [furnishWithFreqs T (mainDiagonal p.fin p.omrec)]⟩), some (exactDiagonal p.fin p.omrec), true, none⟩)
      (w := mainDiagonal p.fin p.omrec) (V := potE p.vClass ⟨p.modePart, p.kPart⟩) (J := []) (by
        unfold HaIs
        intro t psi dpsidt t0
        funext n
        rw [Pi.add_apply, mulVec_ket]
        simp only [ket, TriHam.addContribution, List.foldl_cons, List.foldl_nil, if_true]
        rcases t2 with ⟨a, b⟩ | ⟨a, b⟩
        · rw [apply_furnished a _ _ _ _ _ n.2]; rfl
        · rw [a.furnish, a.apply_propagate, Finset.sum_eq_zero]
          · simp [arr1]
          · intro j hj
            simp [interactionPicture, b n n.2 j (Finset.mem_range.1 hj)]) (by unfold ExIs; intro t n _; exact exactDiagonal_is _ _ _ _) (noLi' _ _ _ _) (by simp)
    convert this using 1
    funext i j
    unfold particleH
    rw [potE_eq p.fin]
    split_ifs with hij
    · rw [kinetic_eq]; ring
    · ring

example : ∃ e, makePumped ⟨2, 1, 3, 5, .sin⟩ .ip = .ok e ∧ e.dim = 4 :=
  let ⟨e, h, h2, _⟩ := makePumped_simulates ⟨2, 1, 3, 5, .sin⟩ (by norm_num) .ip
  ⟨e, h, h2⟩

/-! ## Averages -/

/-- The matrix described by a state vector or density operator. -/
noncomputable def rhoOf (fin : ℕ) (s : Vec ⊕ Dens) : Matrix (Fin (2 ^ fin)) (Fin (2 ^ fin)) ℂ := match s with
  | .inl psi => Matrix.of fun i j => psi i * conj (psi j)
  | .inr rho => Matrix.of fun i j => rho i j

/-- The position amplitudes. -/
noncomputable def amp (fin n : ℕ) (j : ℕ) : ℂ := FFT.kernel (2 ^ fin) .kx n j

theorem amp_product (fin n i j : ℕ) : conj (amp fin n i) * amp fin n j =
    conj (Complex.exp (Complex.I * waveNumber fin i * position fin n)) * Complex.exp (Complex.I * waveNumber fin j * position fin n) / (2 ^ fin : ℕ) := by
  unfold amp FFT.kernel
  have hs : (Real.sqrt ((2 ^ fin : ℕ) : ℝ) : ℂ) * Real.sqrt ((2 ^ fin : ℕ) : ℝ) = (2 ^ fin : ℕ) := by
    rw [← Complex.ofReal_mul, Real.mul_self_sqrt (by positivity)]; simp
  have h0 : ((2 ^ fin : ℕ) : ℂ) ≠ 0 := by norm_cast; positivity
  have hs0 : (Real.sqrt ((2 ^ fin : ℕ) : ℝ) : ℂ) ≠ 0 := by intro h; rw [h, zero_mul] at hs; exact h0 hs.symm
  rw [map_mul, map_div₀, Complex.conj_ofReal, ← Complex.exp_conj, ← Complex.exp_conj, map_pow, map_neg, map_one]
  have sgn : ∀ m : ℕ, ((-1 : ℂ)) ^ m = Complex.exp (m * (Real.pi * Complex.I)) := by
    intro m; rw [Complex.exp_nat_mul, Complex.exp_pi_mul_I]
  have hq : (-1 : ℂ) ^ (n + i) * (-1 : ℂ) ^ (n + j) = (-1 : ℂ) ^ i * (-1) ^ j := by
    rw [pow_add, pow_add]
    have : (-1 : ℂ) ^ n * (-1) ^ n = 1 := by rw [← pow_add, ← two_mul, pow_mul]; norm_num
    linear_combination ((-1 : ℂ) ^ i * (-1) ^ j) * this
  have hinv : (-1 : ℂ) ^ j = Complex.exp (-(j * (Real.pi * Complex.I))) := by
    rw [Complex.exp_neg, ← sgn, ← inv_pow]; norm_num
  have e : ∀ (a b x y : ℂ), a / (Real.sqrt ((2 ^ fin : ℕ) : ℝ) : ℂ) * x * (b / (Real.sqrt ((2 ^ fin : ℕ) : ℝ) : ℂ) * y) = a * b * (x * y) / (2 ^ fin : ℕ) := by
    intro a b x y
    rw [← hs]; field_simp
  rw [e, hq]
  congr 1
  rw [sgn i, hinv, ← Complex.exp_add, ← Complex.exp_add, ← Complex.exp_add, ← Complex.exp_add]
  congr 1
  simp only [map_mul, map_div₀, Complex.conj_I, Complex.conj_ofReal, map_ofNat, map_one, map_natCast, waveNumber, position]
  push_cast
  have h0' : ((2 : ℂ) ^ fin) ≠ 0 := by positivity
  field_simp
  ring

theorem amp_orth (fin n m : ℕ) (hn : n < 2 ^ fin) (hm : m < 2 ^ fin) : ∑ j ∈ Finset.range (2 ^ fin), amp fin n j * conj (amp fin m j) = if n = m then 1 else 0 := by
  have := FFT.kernel_orthogonal (2 ^ fin) (by positivity) .kx m n hm hn
  rw [show (if n = m then (1 : ℂ) else 0) = if m = n then 1 else 0 by simp [eq_comm], ← this]
  refine Finset.sum_congr rfl fun j _ => ?_
  unfold amp
  rw [FFT.kernel_conj, FFT.kernel_symm _ .kx n j, mul_comm]

/-- The position probabilities. -/
noncomputable def probX (fin : ℕ) (ρ : Dens) (n : ℕ) : ℂ := ∑ k ∈ Finset.range (2 ^ fin), ∑ l ∈ Finset.range (2 ^ fin), amp fin n k * ρ k l * conj (amp fin n l)

noncomputable def densOf (s : Vec ⊕ Dens) : Dens := match s with
  | .inl psi => fun i j => psi i * conj (psi j)
  | .inr rho => rho

theorem rhoOf_eq (fin : ℕ) (s : Vec ⊕ Dens) : rhoOf fin s = mat (2 ^ fin) (densOf s) := by cases s <;> rfl

theorem transformed_eq (fin : ℕ) (s : Vec ⊕ Dens) : ∃ dX, transformedDiag fin s = some dX ∧ ∀ n < 2 ^ fin, dX n = (probX fin (densOf s) n).re := by
  cases s with
  | inl psi =>
    obtain ⟨φ, h1, h2⟩ := FFT.ffTransformCV_eq_kernel fin .kx psi
    refine ⟨_, by unfold transformedDiag; dsimp only; rw [h1]; rfl, fun n hn => ?_⟩
    change (φ n * conj (φ n)).re = _
    congr 1
    rw [h2 n hn, map_sum, Finset.sum_mul_sum]
    unfold probX
    refine Finset.sum_congr rfl fun k _ => Finset.sum_congr rfl fun l _ => ?_
    simp only [map_mul, densOf, amp]; ring
  | inr rho =>
    obtain ⟨σ, h1, h2⟩ := FFT.ffTransformCM_eq fin .kx rho
    refine ⟨_, by unfold transformedDiag; dsimp only; rw [h1]; rfl, fun n hn => ?_⟩
    change (σ n n).re = _
    rw [h2 n hn n hn]; rfl

/-- Operators which are functions of the position. -/
noncomputable def fX (fin : ℕ) (f : ℕ → ℝ) : Dens := fun i j => ∑ n ∈ Finset.range (2 ^ fin), (f n : ℂ) * (conj (amp fin n i) * amp fin n j)

theorem positionOp_eq (fin : ℕ) : positionOp fin = fX fin (position fin) := by
  funext i j
  unfold positionOp fX
  refine Finset.sum_congr rfl fun n _ => ?_
  rw [amp_product]; ring

theorem fX_mul (fin : ℕ) (f g : ℕ → ℝ) : mat (2 ^ fin) (fX fin f) * mat (2 ^ fin) (fX fin g) = mat (2 ^ fin) (fX fin fun n => f n * g n) := by
  ext i j
  rw [Matrix.mul_apply]
  simp only [mat_apply]
  rw [Fin.sum_univ_eq_sum_range (fun k => fX fin f i k * fX fin g k j)]
  unfold fX
  simp only [Finset.sum_mul_sum]
  have : ∀ k ∈ Finset.range (2 ^ fin), (∑ n ∈ Finset.range (2 ^ fin), ∑ m ∈ Finset.range (2 ^ fin), (f n : ℂ) * (conj (amp fin n i) * amp fin n k) * ((g m : ℂ) * (conj (amp fin m k) * amp fin m j))) =
      ∑ n ∈ Finset.range (2 ^ fin), ∑ m ∈ Finset.range (2 ^ fin), ((f n : ℂ) * g m * (conj (amp fin n i) * amp fin m j)) * (amp fin n k * conj (amp fin m k)) := by
    intro k _
    exact Finset.sum_congr rfl fun n _ => Finset.sum_congr rfl fun m _ => by ring
  rw [Finset.sum_congr rfl this, Finset.sum_comm]
  refine Finset.sum_congr rfl fun n hn => ?_
  rw [Finset.sum_comm]
  simp only [← Finset.mul_sum]
  rw [Finset.sum_congr rfl fun m hm => by rw [amp_orth fin n m (Finset.mem_range.1 hn) (Finset.mem_range.1 hm)]]
  simp only [mul_ite, mul_one, mul_zero, Finset.sum_ite_eq, hn, if_true]
  push_cast; ring

theorem mean_fX (fin : ℕ) (f : ℕ → ℝ) (ρ : Dens) : mean (mat (2 ^ fin) (fX fin f)) (mat (2 ^ fin) ρ) = ∑ n ∈ Finset.range (2 ^ fin), f n * (probX fin ρ n).re := by
  unfold mean
  have : (mat (2 ^ fin) (fX fin f) * mat (2 ^ fin) ρ).trace = ∑ n ∈ Finset.range (2 ^ fin), (f n : ℂ) * probX fin ρ n := by
    rw [Matrix.trace]
    simp only [Matrix.diag_apply, Matrix.mul_apply, mat_apply]
    have e : ∀ i : Fin (2 ^ fin), ∑ x : Fin (2 ^ fin), fX fin f i x * ρ x i = ∑ x ∈ Finset.range (2 ^ fin), fX fin f i x * ρ x i := fun i => Fin.sum_univ_eq_sum_range (fun x => fX fin f i x * ρ x i) _
    simp only [e]
    rw [Fin.sum_univ_eq_sum_range (fun i => ∑ x ∈ Finset.range (2 ^ fin), fX fin f i x * ρ x i)]
    unfold fX probX
    simp only [Finset.sum_mul, Finset.mul_sum]
    rw [Finset.sum_comm]
    have : ∀ k ∈ Finset.range (2 ^ fin), (∑ l ∈ Finset.range (2 ^ fin), ∑ n ∈ Finset.range (2 ^ fin), (f n : ℂ) * (conj (amp fin n l) * amp fin n k) * ρ k l) =
      ∑ n ∈ Finset.range (2 ^ fin), ∑ l ∈ Finset.range (2 ^ fin), (f n : ℂ) * (amp fin n k * ρ k l * conj (amp fin n l)) := by
      intro k _
      rw [Finset.sum_comm]
      exact Finset.sum_congr rfl fun n _ => Finset.sum_congr rfl fun l _ => by ring
    rw [Finset.sum_congr rfl this, Finset.sum_comm]
  rw [this, Complex.re_sum]
  exact Finset.sum_congr rfl fun n _ => by rw [Complex.re_ofReal_mul]

theorem mean_fK (fin : ℕ) (f : ℕ → ℝ) (ρ : Dens) : mean (mat (2 ^ fin) fun i j => if i = j then (f i : ℂ) else 0) (mat (2 ^ fin) ρ) = ∑ n ∈ Finset.range (2 ^ fin), f n * (ρ n n).re := by
  unfold mean
  rw [Matrix.trace, Complex.re_sum, ← Fin.sum_univ_eq_sum_range (fun n => f n * (ρ n n).re)]
  refine Finset.sum_congr rfl fun i _ => ?_
  rw [Matrix.diag_apply, Matrix.mul_apply, Finset.sum_eq_single i]
  · simp [mat_apply]
  · intro b _ hb; simp [mat_apply, Fin.val_inj, Ne.symm hb]
  · simp

theorem fK_mul (d : ℕ) (f g : ℕ → ℝ) : mat d (fun i j => if i = j then (f i : ℂ) else 0) * mat d (fun i j => if i = j then (g i : ℂ) else 0) = mat d fun i j => if i = j then ((f i * g i : ℝ) : ℂ) else 0 := by
  ext i j
  rw [Matrix.mul_apply, Finset.sum_eq_single i]
  · simp only [mat_apply, if_true]
    split_ifs <;> simp
  · intro b _ hb; simp [mat_apply, Fin.val_inj, Ne.symm hb]
  · simp

theorem average_apply (fin : ℕ) (s : Vec ⊕ Dens) : ∃ a, average fin s = some a ∧
    a 0 = ∑ n ∈ Finset.range (2 ^ fin), waveNumber fin n * (densOf s n n).re ∧ a 1 = ∑ n ∈ Finset.range (2 ^ fin), waveNumber fin n ^ 2 * (densOf s n n).re ∧
    a 2 = ∑ n ∈ Finset.range (2 ^ fin), position fin n * (probX fin (densOf s) n).re ∧ a 3 = ∑ n ∈ Finset.range (2 ^ fin), position fin n ^ 2 * (probX fin (densOf s) n).re := by
  obtain ⟨dX, h1, h2⟩ := transformed_eq fin s
  have hd : ∀ n, (ldo fin s).diag n = (densOf s n n).re := by intro n; cases s <;> rfl
  unfold average
  rw [h1]
  refine ⟨_, rfl, ?_⟩
  have key : ∀ i, ((List.range (2 ^ fin)).foldl (fun (a : Averages) i =>
      let diag := dX i
      let a := a.add 2 (gridX fin i * diag)
      a.add 3 (gridX fin i ^ 2 * diag)) ((List.range (2 ^ fin)).foldl (fun (a : Averages) i =>
      let diag := (ldo fin s).diag i
      let a := a.add 0 (gridK fin i * diag)
      a.add 1 (gridK fin i ^ 2 * diag)) fun _ => 0)) i =
      (0 + ((List.range (2 ^ fin)).map fun n => (if i = 0 then gridK fin n * (ldo fin s).diag n else 0) + if i = 1 then gridK fin n ^ 2 * (ldo fin s).diag n else 0).sum) +
      ((List.range (2 ^ fin)).map fun n => (if i = 2 then gridX fin n * dX n else 0) + if i = 3 then gridX fin n ^ 2 * dX n else 0).sum := by
    intro i
    rw [foldl_averages _ _ fun n i => (if i = 2 then gridX fin n * dX n else 0) + if i = 3 then gridX fin n ^ 2 * dX n else 0,
      foldl_averages _ _ fun n i => (if i = 0 then gridK fin n * (ldo fin s).diag n else 0) + if i = 1 then gridK fin n ^ 2 * (ldo fin s).diag n else 0]
    · intro a x i; simp only [Averages.add_apply]; ring
    · intro a x i; simp only [Averages.add_apply]; ring
  simp only [sum_map_range, gridK_eq, gridX_eq, hd] at key
  simp only [gridK_eq, gridX_eq, hd]
  refine ⟨(key 0).trans (by simp), (key 1).trans (by simp), (key 2).trans ?_, (key 3).trans ?_⟩
  · simp only [show (2 : ℕ) ≠ 0 by norm_num, show (2 : ℕ) ≠ 1 by norm_num, show (2 : ℕ) ≠ 3 by norm_num, if_false, if_true, add_zero, Finset.sum_const_zero, zero_add]
    exact Finset.sum_congr rfl fun n hn => by rw [h2 n (Finset.mem_range.1 hn)]
  · simp only [show (3 : ℕ) ≠ 0 by norm_num, show (3 : ℕ) ≠ 1 by norm_num, show (3 : ℕ) ≠ 2 by norm_num, if_false, if_true, add_zero, Finset.sum_const_zero, zero_add]
    exact Finset.sum_congr rfl fun n hn => by rw [h2 n (Finset.mem_range.1 hn)]

/-- **C24.** What is displayed for a particle: the expectation value and the variance of the momentum, the expectation value and the standard deviation of the position. -/
theorem averaged_spec (fin : ℕ) (s : Vec ⊕ Dens) : ∃ a, average fin s = some a ∧
    let shown := process a
    let P := mat (2 ^ fin) (momentumOp fin)
    let X := mat (2 ^ fin) (positionOp fin)
    shown 0 = mean P (rhoOf fin s) ∧ shown 1 = variance P (rhoOf fin s) ∧ shown 2 = mean X (rhoOf fin s) ∧ shown 3 = Real.sqrt (variance X (rhoOf fin s)) := by
  obtain ⟨a, h, h0, h1, h2, h3⟩ := average_apply fin s
  refine ⟨a, h, ?_⟩
  simp only
  rw [rhoOf_eq, positionOp_eq]
  unfold variance
  have hP : momentumOp fin = fun i j => if i = j then (waveNumber fin i : ℂ) else 0 := rfl
  rw [hP, fK_mul, fX_mul, mean_fK, mean_fK, mean_fX, mean_fX]
  simp only [process, Averages.set_apply]
  simp only [h0, h1, h2, h3, pow_two]
  simp

/-- **C24.** The variance of the position is not negative, so its square root is the standard deviation. -/
theorem position_variance_nonneg (fin : ℕ) (ρ : Matrix (Fin (2 ^ fin)) (Fin (2 ^ fin)) ℂ) (hρ : ρ.PosSemidef) (h1 : ρ.trace = 1) :
    0 ≤ variance (mat (2 ^ fin) (positionOp fin)) ρ ∧ 0 ≤ variance (mat (2 ^ fin) (momentumOp fin)) ρ := by
  refine ⟨variance_nonneg ?_ hρ h1, variance_nonneg ?_ hρ h1⟩
  · rw [positionOp_eq]
    ext i j
    rw [Matrix.conjTranspose_apply]
    simp only [mat_apply, fX, star_sum, Complex.star_def, map_mul, Complex.conj_conj, Complex.conj_ofReal]
    exact Finset.sum_congr rfl fun n _ => by ring
  · ext i j
    rw [Matrix.conjTranspose_apply]
    simp only [mat_apply, momentumOp, Complex.star_def]
    by_cases h : (i : ℕ) = j
    · simp [h]
    · simp [h, Ne.symm h]

end CppQED.ParticleEl
