import Verif.Lemmas.PyState
import Mathlib.Algebra.BigOperators.Field
import Mathlib.Tactic.FieldSimp

/-!
# Quantum states in Python: C139 and C140
-/

namespace CppQED.PyTools
open CppQED.Tridiag CppQED.PySpec ComplexConjugate

/-! ## Norm and products -/

theorem norm_sq (a : NDArray) : norm a ^ 2 = normSquare a.shape a.val := by
  have h : (sumBox a.shape fun i => a.val i * conj (a.val i)).re = normSquare a.shape a.val := by
    rw [sumBox_eq, normSquare, Complex.re_sum]
    refine Finset.sum_congr rfl fun x _ => ?_
    rw [Complex.mul_conj]; rfl
  rw [norm, h, Real.sq_sqrt]
  exact Finset.sum_nonneg fun x _ => Complex.normSq_nonneg _

theorem normSquare_div (dims : List ℕ) (psi : List ℕ → ℂ) (c : ℂ) : normSquare dims (fun x => psi x / c) = normSquare dims psi / Complex.normSq c := by
  unfold normSquare
  rw [Finset.sum_div]
  exact Finset.sum_congr rfl fun x _ => by rw [map_div₀]

/-- **C139.** `norm` is the Euclidean norm, and `normalize` divides the state by it: the result is of unit norm. It is defined unless the state is null. -/
theorem normalize_spec (a : NDArray) : norm a = Real.sqrt (normSquare a.shape a.val) ∧
    (normSquare a.shape a.val ≠ 0 → ∃ b, normalize a = .ok b ∧ b.shape = a.shape ∧ normSquare b.shape b.val = 1 ∧
      ∀ x, b.val x = a.val x / (Real.sqrt (normSquare a.shape a.val) : ℝ)) ∧
    (normSquare a.shape a.val = 0 → normalize a = .undef) := by
  have h0 : 0 ≤ norm a := Real.sqrt_nonneg _
  have h1 : norm a = Real.sqrt (normSquare a.shape a.val) := by rw [← norm_sq, Real.sqrt_sq h0]
  refine ⟨h1, fun h => ?_, fun h => ?_⟩
  · have hn : norm a ≠ 0 := fun hh => h (by rw [← norm_sq, hh]; ring)
    refine ⟨_, if_neg hn, rfl, ?_, fun x => by rw [← h1]⟩
    dsimp only
    rw [normSquare_div, Complex.normSq_ofReal, ← norm_sq, ← sq, div_self (pow_ne_zero 2 hn)]
  · exact if_pos (by rw [h1, h, Real.sqrt_zero])

/-- **C139.** `outer` (and `**`) is the tensor product: the amplitudes are the products, the subsystems are those of the first, followed by those of the second; the squared norm is the product of the squared norms. -/
theorem outer_spec (a b : NDArray) : (outer a b).shape = a.shape ++ b.shape ∧ (∀ x ∈ box a.shape, ∀ y, (outer a b).val (x ++ y) = a.val x * b.val y) ∧
    normSquare (outer a b).shape (outer a b).val = normSquare a.shape a.val * normSquare b.shape b.val := by
  have h : ∀ x ∈ box a.shape, ∀ y, (outer a b).val (x ++ y) = a.val x * b.val y := by
    intro x hx y
    have hl : a.ndim = x.length := (length_of_mem_box hx).symm
    show a.val ((x ++ y).take a.ndim) * b.val ((x ++ y).drop a.ndim) = _
    rw [hl, List.take_left, List.drop_left]
  refine ⟨rfl, h, ?_⟩
  have : ((normSquare (outer a b).shape (outer a b).val : ℝ) : ℂ) = ((normSquare a.shape a.val * normSquare b.shape b.val : ℝ) : ℂ) := by
    unfold normSquare
    push_cast
    show ∑ x ∈ box (a.shape ++ b.shape), _ = _
    rw [sum_box_append, Finset.sum_mul_sum]
    refine Finset.sum_congr rfl fun x hx => Finset.sum_congr rfl fun y _ => ?_
    rw [h x hx, map_mul]; push_cast; rfl
  exact_mod_cast this

/-- **C139.** `dyad` is `|Ψ⟩⟨Ψ|`, a Hermitian matrix with the squared norm as its trace. -/
theorem dyad_spec (a : NDArray) : (dyad a).shape = a.shape ++ a.shape ∧ (∀ x ∈ box a.shape, ∀ y, (dyad a).val (x ++ y) = a.val x * conj (a.val y)) ∧
    (∀ x ∈ box a.shape, ∀ y ∈ box a.shape, (dyad a).val (x ++ y) = conj ((dyad a).val (y ++ x))) ∧
    ∑ x ∈ box a.shape, (dyad a).val (x ++ x) = normSquare a.shape a.val := by
  have h : ∀ x ∈ box a.shape, ∀ y, (dyad a).val (x ++ y) = a.val x * conj (a.val y) := fun x hx y => (outer_spec a (conjArr a)).2.1 x hx y
  refine ⟨rfl, h, fun x hx y hy => ?_, ?_⟩
  · rw [h x hx, h y hy, map_mul, Complex.conj_conj, mul_comm]
  · unfold normSquare
    push_cast
    exact Finset.sum_congr rfl fun x hx => by rw [h x hx, Complex.mul_conj]

/-! ## `reduce` -/

theorem reduceLoop_false (is : List ℕ) (a : NDArray) : reduceLoop false is a = sumAxes is a := by
  induction is generalizing a with
  | nil => rfl
  | cons i is ih =>
    rw [reduceLoop, sumAxes]
    cases sumAxis a i with
    | ok b => exact ih b
    | throw => rfl
    | undef => rfl

/-- the relation of the normalised loop to the loop without normalisation -/
theorem sumAxes_scale (is : List ℕ) (s : List ℕ) (f : List ℕ → ℂ) (c : ℂ) (b : NDArray) (h : sumAxes is ⟨s, f⟩ = .ok b) :
    sumAxes is ⟨s, fun x => f x / c⟩ = .ok ⟨b.shape, fun x => b.val x / c⟩ := by
  induction is generalizing s f b with
  | nil =>
    simp only [sumAxes, Outcome.ok.injEq] at h
    rw [← h]; rfl
  | cons i is ih =>
    rw [sumAxes] at h ⊢
    unfold sumAxis at h ⊢
    by_cases hi : i < s.length
    · rw [if_pos (by exact hi)] at h ⊢
      have := ih _ _ _ h
      simpa only [Outcome.bind, Finset.sum_div] using this
    · rw [if_neg (by exact hi)] at h
      cases h

theorem normSquare_congr {s : List ℕ} {f g : List ℕ → ℂ} (h : ∀ x ∈ box s, f x = g x) : normSquare s f = normSquare s g :=
  Finset.sum_congr rfl fun x hx => by rw [h x hx]

theorem normSquare_nonneg (s : List ℕ) (f : List ℕ → ℂ) : 0 ≤ normSquare s f := Finset.sum_nonneg fun x _ => Complex.normSq_nonneg _

theorem normSquare_eq_zero {s : List ℕ} {f : List ℕ → ℂ} : normSquare s f = 0 ↔ ∀ x ∈ box s, f x = 0 := by
  unfold normSquare
  rw [Finset.sum_eq_zero_iff_of_nonneg fun x _ => Complex.normSq_nonneg _]
  exact forall₂_congr fun x _ => Complex.normSq_eq_zero

theorem eraseAll_ne_nil (is s : List ℕ) (h : is.Pairwise (· > ·)) (hx : ∀ i ∈ is, i < s.length) : (eraseAll is s).length = s.length - is.length := by
  induction is generalizing s with
  | nil => rfl
  | cons i is ih =>
    have hi : i < s.length := hx i (by simp)
    have hlt : ∀ j ∈ is, j < i := (List.pairwise_cons.1 h).1
    have hl := List.length_eraseIdx_of_lt hi
    have : eraseAll (i :: is) s = eraseAll is (s.eraseIdx i) := rfl
    rw [this, ih _ (List.pairwise_cons.1 h).2 fun j hj => by have := hlt j hj; omega, hl, List.length_cons]
    omega

theorem reduceLoop_true (is : List ℕ) (a : NDArray) (h : is.Pairwise (· > ·)) (hx : ∀ i ∈ is, i < a.ndim) (hne : is ≠ []) (hk : is.length < a.ndim) (b : NDArray) (hb : sumAxes is a = .ok b) :
    reduceLoop true is a = normalize b := by
  induction is generalizing a b with
  | nil => exact absurd rfl hne
  | cons i is ih =>
    have hi : i < a.ndim := hx i (by simp)
    have hlt : ∀ j ∈ is, j < i := (List.pairwise_cons.1 h).1
    obtain ⟨c, hc, hcs, hcv⟩ := sumAxis_eq a hi
    have hcn : c.ndim = a.ndim - 1 := by unfold NDArray.ndim at hi ⊢; rw [hcs, List.length_eraseIdx_of_lt hi]
    have hlen : is.length + 1 < a.ndim := by simpa using hk
    have hcne : c.shape ≠ [] := fun hh => by
      unfold NDArray.ndim at hcn
      rw [hh] at hcn
      simp only [List.length_nil] at hcn
      unfold NDArray.ndim at hlen
      omega
    rw [sumAxes, hc] at hb
    simp only [Outcome.bind] at hb
    rw [reduceLoop, hc]
    simp only [Outcome.bind, if_true, if_neg hcne]
    obtain ⟨n1, n2, n3⟩ := normalize_spec c
    by_cases h0 : normSquare c.shape c.val = 0
    · -- the state is null, and remains so
      rw [n3 h0]
      simp only
      have hb0 : normSquare b.shape b.val = 0 := by
        obtain ⟨b', hb', hbs, hbv⟩ := sumAxes_eq is c (List.pairwise_cons.1 h).2 (fun j hj => by have := hlt j hj; omega)
        rw [hb] at hb'
        obtain rfl : b = b' := by simpa using hb'
        rw [normSquare_eq_zero] at h0 ⊢
        intro x hx
        rw [hbv x hx]
        exact Finset.sum_eq_zero fun y hy => h0 y (Finset.mem_filter.1 hy).1
      exact ((normalize_spec b).2.2 hb0).symm
    · obtain ⟨d, hd, hds, hd1, hdv⟩ := n2 h0
      rw [hd]
      simp only
      set r : ℂ := ((Real.sqrt (normSquare c.shape c.val) : ℝ) : ℂ) with hr
      have hr0 : Real.sqrt (normSquare c.shape c.val) ≠ 0 := fun hh => h0 ((Real.sqrt_eq_zero (normSquare_nonneg _ _)).1 hh)
      have hd' : d = ⟨c.shape, fun x => c.val x / r⟩ := by
        cases d with
        | mk ds dv =>
          dsimp only at hds hdv
          rw [hds]; congr 1; exact funext hdv
      cases is with
      | nil =>
        simp only [sumAxes, Outcome.ok.injEq] at hb
        subst hb
        rw [reduceLoop, hd]
      | cons j js =>
        have hs := sumAxes_scale (j :: js) c.shape c.val r b hb
        rw [← hd'] at hs
        rw [ih d (List.pairwise_cons.1 h).2 (fun p hp => by
          have := hlt p hp
          have e : d.ndim = c.ndim := by unfold NDArray.ndim; rw [hds]
          omega) (by simp) (by
          have e : d.ndim = c.ndim := by unfold NDArray.ndim; rw [hds]
          omega) _ hs]
        -- normalisation of a multiple
        have hn : ∀ z : NDArray, ∀ c : ℝ, 0 < c → normalize ⟨z.shape, fun x => z.val x / (c : ℂ)⟩ = normalize z := by
          intro z c hc
          obtain ⟨e1, e2, e3⟩ := normalize_spec z
          obtain ⟨g1, g2, g3⟩ := normalize_spec ⟨z.shape, fun x => z.val x / (c : ℂ)⟩
          have hsq : normSquare z.shape (fun x => z.val x / (c : ℂ)) = normSquare z.shape z.val / c ^ 2 := by
            rw [normSquare_div, Complex.normSq_ofReal, sq]
          by_cases hz : normSquare z.shape z.val = 0
          · rw [e3 hz]
            exact g3 (by dsimp only; rw [hsq, hz, zero_div])
          · obtain ⟨u, hu, hus, _, huv⟩ := e2 hz
            obtain ⟨w, hw, hws, _, hwv⟩ := g2 (by dsimp only; rw [hsq]; exact div_ne_zero hz (pow_ne_zero 2 hc.ne'))
            rw [hu, hw]
            congr 1
            cases u with
            | mk us uv =>
              cases w with
              | mk ws wv =>
                dsimp only at hus huv hws hwv hsq
                rw [hus, hws]
                congr 1
                funext x
                rw [huv, hwv, hsq, Real.sqrt_div (normSquare_nonneg _ _), Real.sqrt_sq hc.le]
                push_cast
                have : (c : ℂ) ≠ 0 := by exact_mod_cast hc.ne'
                field_simp
        exact hn b _ (lt_of_le_of_ne (Real.sqrt_nonneg _) hr0.symm)

/-- **C139.** `reduce` is what its documentation says: the sum over the given subsystems, whatever the order they are given in, divided at the end by its norm, if `norm=True`, for any number of
subsystems and any dimensions. (That the code normalises after each summation makes no difference.) The result is undefined if and only if the sum is the null vector. -/
theorem reduce_spec (a : NDArray) (l : List ℕ) (hl : l.Nodup) (hx : ∀ i ∈ l, i < a.ndim) :
    ∃ b, reduce a l false = .ok b ∧ b.shape = restrict (others a.ndim l) a.shape ∧ (∀ y ∈ box b.shape, b.val y = summed a.shape (others a.ndim l) a.val y) ∧
    (l ≠ [] → l.length < a.ndim →
      (normSquare b.shape b.val = 0 → reduce a l true = .undef) ∧
      (normSquare b.shape b.val ≠ 0 → ∃ c, reduce a l true = .ok c ∧ c.shape = b.shape ∧ normSquare c.shape c.val = 1 ∧
        ∀ y ∈ box c.shape, c.val y = summed a.shape (others a.ndim l) a.val y / (Real.sqrt (normSquare b.shape (summed a.shape (others a.ndim l) a.val)) : ℝ))) := by
  obtain ⟨b, hb, hbs, hbv⟩ := sumAxes_sorted l a hl hx
  refine ⟨b, by rw [reduce, reduceLoop_false, hb], hbs, hbv, fun hne hk => ?_⟩
  have hlen : (sortedReverse l).length = l.length := by simp [sortedReverse]
  have h1 : reduce a l true = normalize b := by
    refine reduceLoop_true _ a (sortedReverse_pairwise hl) (fun i hi => hx i (mem_sortedReverse.1 hi)) (fun hh => hne ?_) (by rw [hlen]; exact hk) b hb
    rw [hh] at hlen
    exact List.length_eq_zero_iff.1 hlen.symm
  obtain ⟨n1, n2, n3⟩ := normalize_spec b
  rw [h1]
  refine ⟨n3, fun h0 => ?_⟩
  obtain ⟨c, hc, hcs, hc1, hcv⟩ := n2 h0
  refine ⟨c, hc, hcs, hc1, fun y hy => ?_⟩
  rw [hcs] at hy
  rw [hcv y, hbv y hy, normSquare_congr hbv]

theorem reduceLoop_complete (is : List ℕ) (a b : NDArray) (hk : is.length = a.ndim) (hne : is ≠ []) : reduceLoop true is a ≠ .ok b := by
  induction is generalizing a with
  | nil => exact absurd rfl hne
  | cons i is ih =>
    unfold reduceLoop
    cases hs : sumAxis a i with
    | throw => simp [Outcome.bind]
    | undef => simp [Outcome.bind]
    | ok c =>
      have hc : c.ndim + 1 = a.ndim := by
        unfold sumAxis at hs
        split_ifs at hs with hi
        injection hs with hs
        subst hs
        simp only [NDArray.ndim, List.length_eraseIdx] at hi ⊢
        rw [if_pos hi]
        omega
      simp only [Outcome.bind, if_true]
      by_cases h0 : c.shape = []
      · simp [h0]
      · rw [if_neg h0]
        unfold normalize
        split_ifs
        · simp
        · refine ih _ ?_ ?_
          · simp only [List.length_cons] at hk
            simp only [NDArray.ndim] at hc hk ⊢
            omega
          · rintro rfl
            simp only [List.length_cons, List.length_nil, zero_add] at hk
            exact h0 (List.length_eq_zero_iff.1 (by simp only [NDArray.ndim] at hc hk; omega))

/-- **C139.** The sum over all the subsystems is a number, and cannot be normalised: `reduce` never returns with `norm=True`. -/
theorem reduce_complete (a b : NDArray) (l : List ℕ) (hk : l.length = a.ndim) (hne : l ≠ []) : reduce a l true ≠ .ok b := by
  have hlen : (sortedReverse l).length = l.length := by simp [sortedReverse]
  refine reduceLoop_complete _ a b (by rw [hlen, hk]) fun hh => hne ?_
  rw [hh] at hlen
  exact List.length_eq_zero_iff.1 hlen.symm

/-! ## Expectation values -/

/-- the matrix of a diagonal operator -/
def diagonal (d : List ℕ → ℂ) (i j : List ℕ) : ℂ := if i = j then d i else 0

theorem conjugateIndices_ok {l : List ℕ} {n : ℕ} (h : ∀ i ∈ l, i < n) : conjugateIndices l n = .ok (others n l) := by
  unfold conjugateIndices
  rw [if_neg]
  · rfl
  · rintro ⟨i, hi, hin⟩
    have := h i hi
    omega

theorem others_others {n : ℕ} {l : List ℕ} (h : ∀ i ∈ l, i < n) : others n (others n l) = among n l := by
  unfold others among
  refine List.filter_congr fun p hp => ?_
  have := List.mem_range.1 hp
  simp [this]

theorem restrict_eq {s x y : List ℕ} {l : List ℕ} (hx : x ∈ box s) (hy : y ∈ box s) (h : AgreeOff s.length l x y) (hr : restrict l x = restrict l y) : x = y := by
  refine ext_getD (length_of_mem_box hx) (length_of_mem_box hy) fun p hp => ?_
  by_cases hpl : p ∈ l
  · have := congrArg (fun z => z.getD (l.idxOf p) 0) hr
    simp only [restrict] at this
    rw [getD_map _ (List.idxOf_lt_length_iff.2 hpl), getD_map _ (List.idxOf_lt_length_iff.2 hpl), getD_idxOf hpl] at this
    exact this
  · exact h p hp hpl

theorem expectation_diagonal (s l : List ℕ) (psi : List ℕ → ℂ) (d : List ℕ → ℂ) :
    expectation s psi (extended s.length l (diagonal d)) = ∑ x ∈ box s, (Complex.normSq (psi x) : ℂ) * d (restrict l x) := by
  unfold expectation
  refine Finset.sum_congr rfl fun x hx => ?_
  rw [Finset.sum_eq_single x]
  · unfold extended diagonal
    rw [if_pos (show AgreeOff s.length l x x from fun _ _ _ => rfl), if_pos rfl, ← Complex.mul_conj]; ring
  · intro y hy hne
    unfold extended diagonal
    by_cases h : AgreeOff s.length l x y
    · rw [if_pos h, if_neg fun hr => hne (restrict_eq hx hy h hr).symm]; ring
    · rw [if_neg h]; ring
  · exact fun h => absurd hx h

theorem diagexp_core (a op A : NDArray) (hA : mulArr a (conjArr a) = .ok A) (l : List ℕ) (hx : ∀ i ∈ l, i < a.ndim) (hop : op.shape = restrict (among a.ndim l) a.shape) :
    ((sumAxes (sortedReverse (others a.ndim l)) A).bind fun A => (mulArr A op).bind fun p => Outcome.ok (sumBox p.shape p.val)) =
      .ok (expectation a.shape a.val (extended a.ndim (among a.ndim l) (diagonal op.val))) := by
  have hA' : A = ⟨a.shape, fun x => a.val x * conj (a.val x)⟩ := by
    have : mulArr a (conjArr a) = .ok ⟨a.shape, fun x => a.val x * conj (a.val x)⟩ := if_pos rfl
    rw [this] at hA
    simpa using hA.symm
  have hnd : A.ndim = a.ndim := by rw [hA']; rfl
  obtain ⟨b, hb, hbs, hbv⟩ := sumAxes_sorted (others a.ndim l) A ((List.nodup_range).filter _) (fun i hi => by
    rw [hnd]
    exact List.mem_range.1 (List.mem_filter.1 hi).1)
  rw [hnd, others_others hx] at hbs hbv
  have hAs : A.shape = a.shape := by rw [hA']
  rw [hAs] at hbs hbv
  rw [hb]
  have hm : mulArr b op = .ok ⟨b.shape, fun x => b.val x * op.val x⟩ := if_pos (by rw [hbs, hop])
  simp only [Outcome.bind, hm]
  congr 1
  rw [sumBox_eq, show a.ndim = a.shape.length from rfl, expectation_diagonal, Finset.sum_congr rfl fun y hy => by rw [hbv y hy, summed]]
  simp only [Finset.sum_filter, Finset.sum_mul]
  rw [Finset.sum_comm]
  refine Finset.sum_congr rfl fun x hx' => ?_
  rw [Finset.sum_eq_single (restrict (among a.ndim l) x)]
  · rw [if_pos rfl, hA']
    dsimp only
    rw [Complex.mul_conj]; rfl
  · intro y _ hne
    rw [if_neg (Ne.symm hne), zero_mul]
  · intro hh
    refine absurd ?_ hh
    rw [hbs]
    exact restrict_mem_box (fun p hp => List.mem_range.1 (List.mem_filter.1 hp).1) hx'

theorem among_range (n : ℕ) : among n (List.range n) = List.range n := by
  unfold among
  rw [List.filter_eq_self]
  intro p hp
  simpa using hp

theorem expectation_range (s : List ℕ) (psi : List ℕ → ℂ) (A : List ℕ → List ℕ → ℂ) : expectation s psi (extended s.length (List.range s.length) A) = expectation s psi A := by
  unfold expectation
  refine Finset.sum_congr rfl fun x hx => Finset.sum_congr rfl fun y hy => ?_
  unfold extended
  have : AgreeOff s.length (List.range s.length) x y := fun p hp hh => absurd (List.mem_range.2 hp) hh
  rw [if_pos this, restrict_range (length_of_mem_box hx), restrict_range (length_of_mem_box hy)]

/-- **C139.** `diagexpvalue` is the expectation value of the operator with the given diagonal elements, acting on the given subsystems (in their natural order) and as the identity on the others; with an integer, on this subsystem; without the argument, on
the whole system. A subsystem that does not exist is an exception. -/
theorem diagexpvalue_spec (a op : NDArray) :
    (∀ l : List ℕ, (∀ i ∈ l, i < a.ndim) → op.shape = restrict (among a.ndim l) a.shape →
      diagexpvalue a op (.seq l) = .ok (expectation a.shape a.val (extended a.ndim (among a.ndim l) (diagonal op.val)))) ∧
    (∀ i < a.ndim, op.shape = restrict [i] a.shape → diagexpvalue a op (.int i) = .ok (expectation a.shape a.val (extended a.ndim [i] (diagonal op.val)))) ∧
    (op.shape = a.shape → diagexpvalue a op .none = .ok (expectation a.shape a.val (diagonal op.val))) ∧
    (∀ l : List ℕ, (∃ i ∈ l, a.ndim ≤ i) → diagexpvalue a op (.seq l) = .throw) := by
  have hA : mulArr a (conjArr a) = .ok ⟨a.shape, fun x => a.val x * conj (a.val x)⟩ := if_pos rfl
  have h1 : ∀ i < a.ndim, among a.ndim [i] = [i] := by
    intro i hi
    refine List.Perm.eq_of_pairwise' (r := (· ≤ ·)) ?_ ?_ ?_
    · exact (List.pairwise_le_range).filter _
    · simp
    · unfold among
      rw [List.perm_ext_iff_of_nodup ((List.nodup_range).filter _) (by simp)]
      intro p
      simp only [List.mem_filter, List.mem_range, List.mem_singleton, decide_eq_true_eq, and_iff_right_iff_imp]
      rintro rfl; exact hi
  refine ⟨fun l hl hop => ?_, fun i hi hop => ?_, fun hop => ?_, fun l hl => ?_⟩
  · rw [diagexpvalue, hA]
    simp only [Outcome.bind]
    rw [conjugateIndices_ok hl]
    exact diagexp_core a op _ hA l hl hop
  · rw [diagexpvalue, hA]
    simp only [Outcome.bind]
    have hl : ∀ j ∈ [i], j < a.ndim := by simpa using hi
    rw [conjugateIndices_ok hl]
    have := diagexp_core a op _ hA [i] hl (by rw [h1 i hi]; exact hop)
    rw [h1 i hi] at this
    exact this
  · rw [diagexpvalue, hA]
    simp only [Outcome.bind]
    rw [show mulArr ⟨a.shape, fun x => a.val x * conj (a.val x)⟩ op = .ok ⟨a.shape, fun x => a.val x * conj (a.val x) * op.val x⟩ from if_pos hop.symm]
    simp only
    congr 1
    rw [← expectation_range, expectation_diagonal, sumBox_eq]
    refine Finset.sum_congr rfl fun x hx => ?_
    rw [restrict_range (length_of_mem_box hx), Complex.mul_conj]
  · rw [diagexpvalue, hA]
    simp only [Outcome.bind]
    rw [show conjugateIndices l a.ndim = .throw from if_pos hl]

/-- the documentation of `reducesquare`: `w(α₁,α₂) = Σ_β Ψ*(α₁,β) Ψ(α₂,β)`, where `β` stands for the subsystems other than `keep` -/
noncomputable def documentedSquare (dims keep : List ℕ) (psi : List ℕ → ℂ) (i j : List ℕ) : ℂ :=
  ∑ x ∈ box dims with restrict keep x = i, ∑ y ∈ box dims with restrict keep y = j, if AgreeOff dims.length keep x y then conj (psi x) * psi y else 0

theorem reducesquare_eq (a : NDArray) (l : List ℕ) (hl : l.Nodup) (hx : ∀ i ∈ l, i < a.ndim) :
    ∃ b, reducesquare a l = .ok b ∧ b.shape = restrict (others a.ndim l) a.shape ++ restrict (others a.ndim l) a.shape ∧ Partition a.ndim (sortedReverse l) (others a.ndim l) ∧
    ∀ i j, i.length = (others a.ndim l).length → b.val (i ++ j) = ∑ m ∈ box ((sortedReverse l).map (a.shape.getD · 0)),
      a.val (assemble a.ndim (sortedReverse l) m (others a.ndim l) i) * conj (a.val (assemble a.ndim (sortedReverse l) m (others a.ndim l) j)) := by
  have hx' : ∀ p ∈ sortedReverse l, p < a.ndim := fun i hi => hx i (mem_sortedReverse.1 hi)
  have hn : (sortedReverse l).Nodup := (sortedReverse_pairwise hl).imp fun h => ne_of_gt h
  have hk : ((List.range a.ndim).filter fun p => p ∉ sortedReverse l) = others a.ndim l := others_congr fun p => mem_sortedReverse
  have hP := Partition.others hx' hn
  rw [hk] at hP
  refine ⟨_, if_pos ⟨hx', hn, rfl⟩, ?_, hP, fun i j hi => ?_⟩
  · dsimp only
    rw [hk]; rfl
  · dsimp only
    rw [hk, sumBox_eq, ← hi, List.take_left, List.drop_left]
    rfl

/-- **C140.** `reducesquare` returns the complex conjugate of what its documentation says. -/
theorem reducesquare_partial (a : NDArray) (l : List ℕ) (hl : l.Nodup) (hx : ∀ i ∈ l, i < a.ndim) :
    ∃ b, reducesquare a l = .ok b ∧ b.shape = restrict (others a.ndim l) a.shape ++ restrict (others a.ndim l) a.shape ∧
    ∀ i ∈ box (restrict (others a.ndim l) a.shape), ∀ j ∈ box (restrict (others a.ndim l) a.shape), b.val (i ++ j) = conj (documentedSquare a.shape (others a.ndim l) a.val i j) := by
  obtain ⟨b, hb, hbs, hP, hbv⟩ := reducesquare_eq a l hl hx
  have hP' : Partition a.shape.length (sortedReverse l) (others a.ndim l) := hP
  refine ⟨b, hb, hbs, fun i hi j hj => ?_⟩
  have hil : i.length = (others a.ndim l).length := by simpa [restrict] using length_of_mem_box hi
  have hjl : j.length = (others a.ndim l).length := by simpa [restrict] using length_of_mem_box hj
  rw [hbv i j hil, documentedSquare, sum_part hP' _ hi, map_sum]
  refine Finset.sum_congr rfl fun m hm => ?_
  rw [sum_part hP' _ hj, Finset.sum_eq_single m]
  · have hml : m.length = (sortedReverse l).length := by simpa using length_of_mem_box hm
    rw [if_pos ((agreeOff_assemble hP' hml hml).2 rfl), map_mul, Complex.conj_conj]
    rfl
  · intro m' hm' hne
    have hml : m.length = (sortedReverse l).length := by simpa using length_of_mem_box hm
    have hml' : m'.length = (sortedReverse l).length := by simpa using length_of_mem_box hm'
    rw [if_neg fun hh => hne ((agreeOff_assemble hP' hml hml').1 hh).symm]
  · exact fun hh => absurd hm hh

/-- the operator on the given subsystems that an array stands for -/
def operatorOf (op : NDArray) (i j : List ℕ) : ℂ := op.val (interleave i j)

/-- `expvalue` with given subsystems or with the whole system. -/
theorem expvalue_value (a op : NDArray) :
    (∀ l : List ℕ, (∀ i ∈ l, i < a.ndim) → op.shape = interleave (restrict (among a.ndim l) a.shape) (restrict (among a.ndim l) a.shape) →
      expvalue a op (.seq l) = .ok (expectation a.shape a.val (extended a.ndim (among a.ndim l) fun i j => operatorOf op j i))) ∧
    (op.shape = interleave a.shape a.shape → expvalue a op .none = .ok (expectation a.shape a.val fun i j => operatorOf op j i)) := by
  constructor
  · intro l hl hop
    have ho : ∀ i ∈ others a.ndim l, i < a.ndim := fun i hi => List.mem_range.1 (List.mem_filter.1 hi).1
    obtain ⟨b, hb, hbs, hP, hbv⟩ := reducesquare_eq a (others a.ndim l) ((List.nodup_range).filter _) ho
    rw [others_others hl] at hbs hP hbv
    set d := restrict (among a.ndim l) a.shape with hd
    obtain ⟨t, ht, hts, htv⟩ := transpose_interleave op d d rfl hop
    have hbn : b.ndim = 2 * d.length := by unfold NDArray.ndim; rw [hbs, List.length_append]; ring
    rw [expvalue]
    rw [conjugateIndices_ok hl]
    simp only [Outcome.bind]
    rw [hb]
    simp only
    rw [hbn, ht]
    simp only
    rw [show mulArr b t = .ok ⟨b.shape, fun x => b.val x * t.val x⟩ from if_pos (by rw [hbs, hts])]
    simp only
    congr 1
    have hP' : Partition a.shape.length (sortedReverse (others a.ndim l)) (among a.ndim l) := hP
    rw [sumBox_eq, hbs, sum_box_append]
    refine Eq.trans ?_ (expectation_split hP' a.val _).symm
    refine Finset.sum_congr rfl fun i hi => Finset.sum_congr rfl fun j hj => ?_
    have hdl : d.length = (among a.ndim l).length := by simp [hd, restrict]
    rw [hbv i j (by rw [length_of_mem_box hi]; exact hdl), htv i j (length_of_mem_box hi) (length_of_mem_box hj)]
    rfl
  · intro hop
    obtain ⟨t, ht, hts, htv⟩ := transpose_interleave op a.shape a.shape rfl hop
    rw [expvalue]
    simp only [Outcome.bind]
    have hbn : (outerArr a (conjArr a)).ndim = 2 * a.shape.length := by
      show (a.shape ++ a.shape).length = _
      rw [List.length_append]; ring
    rw [hbn, ht]
    simp only
    rw [show mulArr (outerArr a (conjArr a)) t = .ok ⟨(outerArr a (conjArr a)).shape, fun x => (outerArr a (conjArr a)).val x * t.val x⟩ from if_pos (by rw [hts]; rfl)]
    simp only
    congr 1
    rw [sumBox_eq, show (outerArr a (conjArr a)).shape = a.shape ++ a.shape from rfl, sum_box_append, expectation, Finset.sum_comm]
    refine Finset.sum_congr rfl fun j hj => Finset.sum_congr rfl fun i hi => ?_
    have := (dyad_spec a).2.1 i hi j
    rw [show (outerArr a (conjArr a)).val (i ++ j) = a.val i * conj (a.val j) from this, htv i j (length_of_mem_box hi) (length_of_mem_box hj)]
    unfold operatorOf
    ring

/-- the expectation value in the state `|X⟩+i|Y⟩` -/
theorem expectation_two {s X Y : List ℕ} (hX : X ∈ box s) (hY : Y ∈ box s) (M : List ℕ → List ℕ → ℂ) :
    expectation s (fun x => (if x = X then 1 else 0) + Complex.I * (if x = Y then 1 else 0)) M = M X X + Complex.I * M X Y - Complex.I * M Y X + M Y Y := by
  unfold expectation
  simp only [map_add, map_mul, Complex.conj_I, apply_ite (starRingEnd ℂ), map_one, map_zero, add_mul, mul_add, Finset.sum_add_distrib, mul_ite, mul_one, mul_zero, ite_mul, zero_mul, one_mul,
    Finset.sum_ite_eq', hX, hY, if_true]
  linear_combination (-M Y Y) * Complex.I_mul_I

theorem zeros_mem {s : List ℕ} (h : ∀ d ∈ s, 0 < d) : s.map (fun _ => 0) ∈ box s := by
  rw [mem_box]
  induction s with
  | nil => exact List.Forall₂.nil
  | cons n s ih => exact List.Forall₂.cons (h n (by simp)) (ih fun d hd => h d (by simp [hd]))

/-- **C140.** What is documented as `⟨Ψ|A|Ψ⟩` is in fact the expectation value of the transpose of the operator. It is the expectation value of the operator in all the states if and only if its matrix is symmetric: for observables, if and only if
the matrix is real. With a single integer for the subsystem the function raises an exception. -/
theorem expvalue_partial (op : NDArray) :
    (∀ a : NDArray, ∀ l : List ℕ, (∀ i ∈ l, i < a.ndim) → op.shape = interleave (restrict (among a.ndim l) a.shape) (restrict (among a.ndim l) a.shape) →
      expvalue a op (.seq l) = .ok (expectation a.shape a.val (extended a.ndim (among a.ndim l) fun i j => operatorOf op j i))) ∧
    (∀ a : NDArray, op.shape = interleave a.shape a.shape → expvalue a op .none = .ok (expectation a.shape a.val fun i j => operatorOf op j i)) ∧
    (∀ dims l : List ℕ, (∀ d ∈ dims, 0 < d) → (∀ i ∈ l, i < dims.length) → op.shape = interleave (restrict (among dims.length l) dims) (restrict (among dims.length l) dims) →
      ((∀ psi, expvalue ⟨dims, psi⟩ op (.seq l) = .ok (expectation dims psi (extended dims.length (among dims.length l) (operatorOf op)))) ↔
        ∀ i ∈ box (restrict (among dims.length l) dims), ∀ j ∈ box (restrict (among dims.length l) dims), operatorOf op i j = operatorOf op j i)) ∧
    (∀ a : NDArray, ∀ i, expvalue a op (.int i) = .throw) := by
  refine ⟨fun a => (expvalue_value a op).1, fun a => (expvalue_value a op).2, fun dims l hd hl hop => ?_, fun a i => rfl⟩
  set n := dims.length with hn
  set sub := among n l with hsub
  have hsubn : ∀ p ∈ sub, p < n := fun p hp => List.mem_range.1 (List.mem_filter.1 hp).1
  have hP : Partition dims.length (others n sub) sub := by
    refine ⟨fun p hp => List.mem_range.1 (List.mem_filter.1 hp).1, (List.nodup_range).filter _, (List.nodup_range).filter _, fun p => ?_⟩
    constructor
    · intro hp
      refine ⟨hsubn p hp, fun hh => ?_⟩
      have := (List.mem_filter.1 hh).2
      simp only [decide_eq_true_eq] at this
      exact this hp
    · rintro ⟨h1, h2⟩
      by_contra h3
      exact h2 (List.mem_filter.2 ⟨List.mem_range.2 h1, by simpa using h3⟩)
  have hval : ∀ psi, expvalue ⟨dims, psi⟩ op (.seq l) = .ok (expectation dims psi (extended n sub fun i j => operatorOf op j i)) := fun psi => (expvalue_value ⟨dims, psi⟩ op).1 l hl hop
  constructor
  · intro h i hi j hj
    set z := (restrict (others n sub) dims).map fun _ => 0 with hz
    have hzm : z ∈ box ((others n sub).map (dims.getD · 0)) := by
      refine zeros_mem fun d hd' => ?_
      obtain ⟨p, hp, rfl⟩ := List.mem_map.1 hd'
      exact hd _ (getD_mem (List.mem_range.1 (List.mem_filter.1 hp).1))
    have hzl : z.length = (others n sub).length := by simpa using length_of_mem_box hzm
    have hil : i.length = sub.length := by simpa [restrict] using length_of_mem_box hi
    have hjl : j.length = sub.length := by simpa [restrict] using length_of_mem_box hj
    have hX := assemble_mem_box hP hzm hi
    have hY := assemble_mem_box hP hzm hj
    have hxy := (h _).symm.trans (hval (fun x => (if x = assemble dims.length (others n sub) z sub i then 1 else 0) + Complex.I * (if x = assemble dims.length (others n sub) z sub j then 1 else 0)))
    rw [expectation_two hX hY, expectation_two hX hY] at hxy
    have hag : ∀ i j, AgreeOff n sub (assemble dims.length (others n sub) z sub i) (assemble dims.length (others n sub) z sub j) := fun i j => (agreeOff_assemble hP hzl hzl).2 rfl
    simp only [extended, if_pos (hag _ _), restrict_keep hP hil, restrict_keep hP hjl, Outcome.ok.injEq] at hxy
    have : 2 * Complex.I * (operatorOf op i j - operatorOf op j i) = 0 := by linear_combination hxy
    rcases mul_eq_zero.1 this with h' | h'
    · rcases mul_eq_zero.1 h' with h'' | h''
      · norm_num at h''
      · exact absurd h'' Complex.I_ne_zero
    · exact sub_eq_zero.1 h'
  · intro h psi
    rw [hval psi, show n = dims.length from rfl, expectation_split hP, expectation_split hP]
    congr 1
    refine Finset.sum_congr rfl fun i hi => Finset.sum_congr rfl fun j hj => ?_
    rw [h i hi j hj]

end CppQED.PyTools
