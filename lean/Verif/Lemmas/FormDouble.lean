import Verif.Spec.FormDouble
import Mathlib.Tactic.IntervalCases

/-!
# Lemmas on formatted numbers
-/

namespace CppQED.FormDouble

/-! ## Digits -/

/-- A decimal digit. -/
def Dig (c : Char) : Prop := ∃ d < 10, c = Nat.digitChar d

theorem Dig.ne {c : Char} (h : Dig c) : c ≠ 'e' ∧ c ≠ '.' ∧ c ≠ '-' ∧ c ≠ '+' ∧ c ≠ '\n' ∧ isSpace c = false := by
  obtain ⟨d, h, rfl⟩ := h
  interval_cases d <;> decide

theorem dig_val {d : ℕ} (h : d < 10) : (Nat.digitChar d).toNat - '0'.toNat = d := by
  interval_cases d <;> decide

theorem dig_zero : Dig '0' := ⟨0, by norm_num, by decide⟩

@[simp] theorem digs_length (k n : ℕ) : (digs k n).length = k := by
  induction k generalizing n with
  | zero => rfl
  | succ k ih => simp [digs, ih]

theorem digs_dig (k n : ℕ) : ∀ c ∈ digs k n, Dig c := by
  induction k generalizing n with
  | zero => simp [digs]
  | succ k ih =>
    intro c hc
    rw [digs, List.mem_append, List.mem_singleton] at hc
    rcases hc with hc | rfl
    · exact ih _ _ hc
    · exact ⟨n % 10, Nat.mod_lt _ (by norm_num), rfl⟩

theorem natOf_aux (l : List Char) (a : ℕ) : l.foldl (fun a c => 10 * a + (c.toNat - '0'.toNat)) a = a * 10 ^ l.length + natOf l := by
  induction l generalizing a with
  | nil => simp [natOf]
  | cons c l ih =>
    have e : natOf (c :: l) = (10 * 0 + (c.toNat - '0'.toNat)) * 10 ^ l.length + natOf l := ih (10 * 0 + (c.toNat - '0'.toNat))
    rw [List.foldl_cons, ih, e, List.length_cons]
    ring

theorem natOf_append (l m : List Char) : natOf (l ++ m) = natOf l * 10 ^ m.length + natOf m := by
  rw [natOf, List.foldl_append, natOf_aux m]; rfl

theorem natOf_digs (k n : ℕ) : natOf (digs k n) = n % 10 ^ k := by
  induction k generalizing n with
  | zero => simp [digs, natOf, Nat.mod_one]
  | succ k ih =>
    rw [digs, natOf_append, ih]
    have : natOf [Nat.digitChar (n % 10)] = n % 10 := by
      have := dig_val (Nat.mod_lt n (by norm_num : 0 < 10))
      simpa [natOf] using this
    rw [this, List.length_singleton, pow_one, pow_succ', Nat.mod_mul]
    ring

theorem natOf_zeros (l : List Char) (h : ∀ c ∈ l, c = '0') : natOf l = 0 := by
  induction l with
  | nil => rfl
  | cons c l ih =>
    have e : c = '0' := h c (by simp)
    have := ih fun c hc => h c (by simp [hc])
    rw [show c :: l = [c] ++ l by rfl, natOf_append, this, e]
    simp [natOf]

/-! ## Stripping zeros -/

theorem strip_split (f : List Char) : ∃ z, f = f.rdropWhile (· == '0') ++ z ∧ ∀ c ∈ z, c = '0' := by
  refine ⟨f.rtakeWhile (· == '0'), ?_, fun c hc => ?_⟩
  · simp only [List.rdropWhile, List.rtakeWhile]
    rw [← List.reverse_append, List.takeWhile_append_dropWhile, List.reverse_reverse]
  · simpa using List.mem_rtakeWhile_imp hc

theorem withPoint_length (i f : List Char) : (withPoint i f).length ≤ i.length + 1 + f.length ∧ (f = [] → withPoint i f = i) := by
  obtain ⟨z, hz, -⟩ := strip_split f
  have h : (f.rdropWhile (· == '0')).length ≤ f.length := by
    conv_rhs => rw [hz]
    simp
  constructor
  · unfold withPoint
    split_ifs <;> simp <;> omega
  · rintro rfl; simp [withPoint]

theorem withPoint_chars (i f : List Char) (hi : ∀ c ∈ i, Dig c) (hf : ∀ c ∈ f, Dig c) : ∀ c ∈ withPoint i f, Dig c ∨ c = '.' := by
  intro c hc
  obtain ⟨z, hz, -⟩ := strip_split f
  unfold withPoint at hc
  rw [List.mem_append] at hc
  rcases hc with hc | hc
  · exact .inl (hi c hc)
  · split_ifs at hc
    · simp at hc
    · rcases List.mem_cons.1 hc with rfl | hc
      · exact .inr rfl
      · exact .inl (hf c (by rw [hz]; exact List.mem_append_left _ hc))

/-! ## Reading -/

theorem takeWhile_stop {p : Char → Bool} (l : List Char) (c : Char) (r : List Char) (hl : ∀ x ∈ l, p x = true) (hc : p c = false) : (l ++ c :: r).takeWhile p = l ∧ (l ++ c :: r).dropWhile p = c :: r := by
  induction l with
  | nil => simp [hc]
  | cons a l ih =>
    have := ih fun x hx => hl x (by simp [hx])
    simp [hl a (by simp), this]

theorem takeWhile_all {p : Char → Bool} (l : List Char) (hl : ∀ x ∈ l, p x = true) : l.takeWhile p = l ∧ l.dropWhile p = [] := by
  induction l with
  | nil => simp
  | cons a l ih =>
    have := ih fun x hx => hl x (by simp [hx])
    simp [hl a (by simp), this]

/-- The value of a mantissa. -/
theorem read_mantissa (i f : List Char) (hi : ∀ c ∈ i, Dig c) (hf : ∀ c ∈ f, Dig c) (ex : ℤ) :
    (natOf ((withPoint i f).takeWhile (· ≠ '.') ++ ((withPoint i f).dropWhile (· ≠ '.')).drop 1) : ℝ) * (10 : ℝ) ^ (ex - (((withPoint i f).dropWhile (· ≠ '.')).drop 1).length) =
      (natOf (i ++ f) : ℝ) * (10 : ℝ) ^ (ex - f.length) := by
  obtain ⟨z, hz, hz0⟩ := strip_split f
  generalize hg : f.rdropWhile (· == '0') = g at hz
  have hv : (natOf (i ++ g) : ℝ) * (10 : ℝ) ^ (ex - g.length) = (natOf (i ++ f) : ℝ) * (10 : ℝ) ^ (ex - f.length) := by
    rw [hz, ← List.append_assoc, natOf_append (i ++ g) z, natOf_zeros z hz0, add_zero, List.length_append]
    push_cast
    rw [mul_assoc, ← zpow_natCast, ← zpow_add₀ (by norm_num)]
    congr 2
    ring
  have hip : ∀ x ∈ i, (fun c : Char => decide (c ≠ '.')) x = true := fun x hx => by simpa using (hi x hx).ne.2.1
  unfold withPoint
  rw [hg]
  by_cases h : g = []
  · rw [if_pos h, List.append_nil]
    obtain ⟨h1, h2⟩ := takeWhile_all i hip
    rw [h1, h2]
    rw [h] at hv
    simpa using hv
  · rw [if_neg h]
    obtain ⟨h1, h2⟩ := takeWhile_stop i '.' g hip (by simp)
    rw [h1, h2]
    simpa using hv

theorem expOf_expo (X : ℤ) : expOf (expo X) = X := by
  have h : natOf (digs (max 2 (Nat.log 10 X.natAbs + 1)) X.natAbs) = X.natAbs := by
    rw [natOf_digs, Nat.mod_eq_of_lt]
    exact (Nat.lt_pow_succ_log_self (by norm_num) _).trans_le (Nat.pow_le_pow_right (by norm_num) (le_max_right _ _))
  unfold expo
  split_ifs with hX <;> simp only [expOf, h] <;> omega

theorem expo_chars (X : ℤ) : ∀ c ∈ expo X, Dig c ∨ c = '-' ∨ c = '+' := by
  intro c hc
  unfold expo at hc
  rcases List.mem_cons.1 hc with rfl | hc
  · split_ifs <;> simp
  · exact .inl (digs_dig _ _ c hc)

theorem expo_length (X : ℤ) (h : X.natAbs < 1000) : (expo X).length ≤ 4 := by
  have : Nat.log 10 X.natAbs < 3 := Nat.log_lt_of_lt_pow' (by norm_num) (by norm_num; exact h)
  simp [expo]
  omega

/-- The value of what `%g` writes. -/
theorem read_general (P : ℕ) (hP : 1 ≤ P) (X : ℤ) (n : ℕ) (hn : n < 10 ^ P) : readUnsigned (general P X n) = n * (10 : ℝ) ^ (X + 1 - P) := by
  have hd := digs_dig P n
  have hv : natOf (digs P n) = n := by rw [natOf_digs, Nat.mod_eq_of_lt hn]
  have mant : ∀ i f : List Char, (∀ c ∈ i, Dig c) → (∀ c ∈ f, Dig c) → ∀ x ∈ withPoint i f, (fun c : Char => decide (c ≠ 'e')) x = true := by
    intro i f hi hf x hx
    rcases withPoint_chars i f hi hf x hx with h | rfl
    · simpa using h.ne.1
    · simp
  have pre : ∀ i f : List Char, (∀ c ∈ i, Dig c) → (∀ c ∈ f, Dig c) → readUnsigned (withPoint i f) = (natOf (i ++ f) : ℝ) * (10 : ℝ) ^ (0 - f.length : ℤ) := by
    intro i f hi hf
    unfold readUnsigned
    obtain ⟨h1, h2⟩ := takeWhile_all _ (mant i f hi hf)
    simp only [h1, h2]
    rw [← read_mantissa i f hi hf]
    simp [expOf]
  have ht : ∀ k, ∀ c ∈ (digs P n).take k, Dig c := fun k c hc => hd c (List.mem_of_mem_take hc)
  have hdr : ∀ k, ∀ c ∈ (digs P n).drop k, Dig c := fun k c hc => hd c (List.mem_of_mem_drop hc)
  unfold general
  by_cases hX : -4 ≤ X ∧ X < P
  · simp only [if_pos hX]
    by_cases h0 : 0 ≤ X
    · rw [if_pos h0, pre _ _ (ht _) (hdr _), List.take_append_drop, hv]
      congr 2
      simp only [List.length_drop, digs_length]
      omega
    · rw [if_neg h0, pre _ _ (by simpa using dig_zero) ?_]
      · rw [natOf_append, natOf_append, hv, natOf_zeros (List.replicate _ _) (fun c hc => (List.mem_replicate.1 hc).2)]
        rw [show natOf ['0'] = 0 by simp [natOf]]
        simp only [zero_mul, zero_add, List.length_append, List.length_replicate, digs_length]
        congr 2
        push_cast
        omega
      · intro c hc
        rcases List.mem_append.1 hc with hc | hc
        · rw [(List.mem_replicate.1 hc).2]; exact dig_zero
        · exact hd c hc
  · simp only [if_neg hX]
    have hi := ht 1
    have hf := hdr 1
    have hjoin : (digs P n).take 1 ++ (digs P n).drop 1 = digs P n := List.take_append_drop _ _
    have hlen : ((digs P n).drop 1).length = P - 1 := by simp
    generalize (digs P n).take 1 = i at hi hjoin
    generalize (digs P n).drop 1 = f at hf hjoin hlen
    obtain ⟨h1, h2⟩ := takeWhile_stop _ 'e' (expo X) (mant _ _ hi hf) (by simp)
    have e : readUnsigned (withPoint i f ++ 'e' :: expo X) = (natOf (i ++ f) : ℝ) * (10 : ℝ) ^ (X - f.length) := by
      rw [← read_mantissa i f hi hf X]
      unfold readUnsigned
      simp only [h1, h2, List.drop_succ_cons, List.drop_zero, expOf_expo]
    rw [e, hjoin, hv]
    congr 2
    omega

theorem general_chars (P : ℕ) (X : ℤ) (n : ℕ) : ∀ c ∈ general P X n, Dig c ∨ c = '.' ∨ c = 'e' ∨ c = '-' ∨ c = '+' := by
  have hd := digs_dig P n
  have ht : ∀ k, ∀ c ∈ (digs P n).take k, Dig c := fun k c hc => hd c (List.mem_of_mem_take hc)
  have hdr : ∀ k, ∀ c ∈ (digs P n).drop k, Dig c := fun k c hc => hd c (List.mem_of_mem_drop hc)
  intro c hc
  unfold general at hc
  by_cases hX : -4 ≤ X ∧ X < P
  · simp only [if_pos hX] at hc
    by_cases h0 : 0 ≤ X
    · rw [if_pos h0] at hc
      rcases withPoint_chars _ _ (ht _) (hdr _) c hc with h | h <;> simp [h]
    · rw [if_neg h0] at hc
      have hz : ∀ c ∈ List.replicate (-X - 1).toNat '0' ++ digs P n, Dig c := by
        intro c hc
        rcases List.mem_append.1 hc with hc | hc
        · rw [(List.mem_replicate.1 hc).2]; exact dig_zero
        · exact hd c hc
      rcases withPoint_chars _ _ (by simpa using dig_zero) hz c hc with h | h <;> simp [h]
  · simp only [if_neg hX] at hc
    rcases List.mem_append.1 hc with hc | hc
    · rcases withPoint_chars _ _ (ht _) (hdr _) c hc with h | h <;> simp [h]
    · rcases List.mem_cons.1 hc with rfl | hc
      · simp
      · rcases expo_chars X c hc with h | h | h <;> simp [h]

/-- `%g` starts with a digit. -/
theorem general_head (P : ℕ) (hP : 1 ≤ P) (X : ℤ) (n : ℕ) : ∃ c r, general P X n = c :: r ∧ Dig c := by
  have hd := digs_dig P n
  obtain ⟨c, r, hcr⟩ : ∃ c r, digs P n = c :: r := by
    cases h : digs P n with
    | nil => have := digs_length P n; rw [h] at this; simp at this; omega
    | cons c r => exact ⟨c, r, rfl⟩
  have hc : Dig c := hd c (by rw [hcr]; simp)
  unfold general
  by_cases hX : -4 ≤ X ∧ X < P
  · simp only [if_pos hX]
    by_cases h0 : 0 ≤ X
    · rw [if_pos h0, hcr]
      exact ⟨c, _, by simp [withPoint]; rfl, hc⟩
    · rw [if_neg h0]
      exact ⟨'0', _, by simp [withPoint]; rfl, dig_zero⟩
  · simp only [if_neg hX, hcr]
    exact ⟨c, _, by simp [withPoint]; rfl, hc⟩

theorem general_length (P : ℕ) (hP : 1 ≤ P) (X : ℤ) (hX : X.natAbs < 1000) (n : ℕ) : (general P X n).length ≤ P + 6 ∧ (P = 1 → (general P X n).length ≤ 6) := by
  unfold general
  by_cases h : -4 ≤ X ∧ X < P
  · simp only [if_pos h]
    by_cases h0 : 0 ≤ X
    · rw [if_pos h0]
      have := (withPoint_length ((digs P n).take (X.toNat + 1)) ((digs P n).drop (X.toNat + 1))).1
      simp only [List.length_take, List.length_drop, digs_length] at this
      omega
    · rw [if_neg h0]
      have := (withPoint_length ['0'] (List.replicate (-X - 1).toNat '0' ++ digs P n)).1
      simp only [List.length_append, List.length_replicate, digs_length, List.length_singleton] at this
      omega
  · simp only [if_neg h]
    have e := expo_length X hX
    have := (withPoint_length ((digs P n).take 1) ((digs P n).drop 1)).1
    simp only [List.length_take, List.length_drop, digs_length] at this
    refine ⟨?_, fun h1 => ?_⟩
    · simp only [List.length_append, List.length_cons]; omega
    · subst h1
      have h2 := (withPoint_length ((digs 1 n).take 1) ((digs 1 n).drop 1)).2 (by simp [digs])
      rw [h2]
      simp only [List.length_append, List.length_cons, List.length_take, digs_length]; omega

/-! ## Rounding -/

theorem roundEven_error (y : ℝ) (hy : 0 ≤ y) : |(roundEven y : ℝ) - y| ≤ 1 / 2 := by
  have h1 := Nat.floor_le hy
  have h2 := Nat.lt_floor_add_one y
  unfold roundEven
  split_ifs <;> push_cast <;> rw [abs_le] <;> constructor <;> linarith

theorem roundEven_le (y : ℝ) (hy : 0 ≤ y) (m : ℕ) (h : y < m) : roundEven y ≤ m := by
  have h1 : ⌊y⌋₊ < m := (Nat.floor_lt hy).2 h
  unfold roundEven
  split_ifs <;> omega

theorem sci_spec (P : ℕ) (hP : 1 ≤ P) (x : ℝ) (hx : 0 < x) :
    (sci P x).2 < 10 ^ P ∧ |((sci P x).2 : ℝ) * (10 : ℝ) ^ ((sci P x).1 + 1 - P) - x| ≤ 1 / 2 * (10 : ℝ) ^ (1 - P : ℤ) * x ∧
      ((sci P x).1 = ⌊Real.logb 10 x⌋ ∨ (sci P x).1 = ⌊Real.logb 10 x⌋ + 1) := by
  set X := ⌊Real.logb 10 x⌋ with hX
  have lo : (10 : ℝ) ^ X ≤ x := by
    have := Int.floor_le (Real.logb 10 x)
    rw [← hX, Real.le_logb_iff_rpow_le (by norm_num) hx] at this
    exact_mod_cast this
  have hi : x < (10 : ℝ) ^ (X + 1) := by
    have := Int.lt_floor_add_one (Real.logb 10 x)
    rw [← hX, Real.logb_lt_iff_lt_rpow (by norm_num) hx] at this
    exact_mod_cast this
  set y := x * (10 : ℝ) ^ ((P : ℤ) - 1 - X) with hy
  have y0 : 0 ≤ y := by positivity
  have back : ∀ m : ℝ, m * (10 : ℝ) ^ (X + 1 - P) - x = (m - y) * (10 : ℝ) ^ (X + 1 - P) := by
    intro m
    rw [sub_mul, hy, mul_assoc, ← zpow_add₀ (by norm_num), show (P : ℤ) - 1 - X + (X + 1 - P) = 0 by ring, zpow_zero, mul_one]
  have err : |(roundEven y : ℝ) * (10 : ℝ) ^ (X + 1 - P) - x| ≤ 1 / 2 * (10 : ℝ) ^ (1 - P : ℤ) * x := by
    rw [back, abs_mul, abs_of_pos (by positivity : (0 : ℝ) < (10 : ℝ) ^ (X + 1 - P))]
    calc _ ≤ 1 / 2 * (10 : ℝ) ^ (X + 1 - P) := by gcongr; exact roundEven_error y y0
      _ = 1 / 2 * (10 : ℝ) ^ (1 - P : ℤ) * (10 : ℝ) ^ X := by rw [mul_assoc, ← zpow_add₀ (by norm_num)]; congr 2; ring
      _ ≤ _ := by gcongr
  have ylt : y < ((10 ^ P : ℕ) : ℝ) := by
    rw [hy]
    calc _ < (10 : ℝ) ^ (X + 1) * (10 : ℝ) ^ ((P : ℤ) - 1 - X) := by gcongr
      _ = _ := by rw [← zpow_add₀ (by norm_num)]; push_cast; rw [← zpow_natCast]; congr 1; ring
  have hle := roundEven_le y y0 _ ylt
  have e : sci P x = if roundEven y = 10 ^ P then (X + 1, 10 ^ (P - 1)) else (X, roundEven y) := by
    unfold sci
    rw [if_neg hx.ne']
  rw [e]
  by_cases h : roundEven y = 10 ^ P
  · rw [if_pos h]
    refine ⟨Nat.pow_lt_pow_right (by norm_num) (by omega), ?_, .inr rfl⟩
    rw [h] at err
    convert err using 3
    push_cast
    rw [← zpow_natCast, ← zpow_natCast, ← zpow_add₀ (by norm_num), ← zpow_add₀ (by norm_num)]
    congr 1
    push_cast [Nat.cast_sub hP]
    ring
  · rw [if_neg h]
    exact ⟨lt_of_le_of_ne hle h, err, .inl rfl⟩

theorem logb_bounds (x : ℝ) (h1 : (2 : ℝ) ^ (-1074 : ℤ) ≤ x) (h2 : x < 2 ^ (1024 : ℤ)) : -900 ≤ ⌊Real.logb 10 x⌋ ∧ ⌊Real.logb 10 x⌋ ≤ 900 := by
  have hx : 0 < x := lt_of_lt_of_le (by positivity) h1
  constructor
  · rw [Int.le_floor, Real.le_logb_iff_rpow_le (by norm_num) hx]
    refine le_trans ?_ h1
    rw [show ((-900 : ℤ) : ℝ) = -(900 : ℕ) by norm_num, Real.rpow_neg (by norm_num), Real.rpow_natCast, zpow_neg, inv_le_inv₀ (by positivity) (by positivity)]
    calc (2 : ℝ) ^ (1074 : ℤ) = ((2 : ℝ) ^ 3) ^ 358 := by rw [← pow_mul, ← zpow_natCast]; norm_num
      _ ≤ 10 ^ 358 := by gcongr; norm_num
      _ ≤ 10 ^ 900 := by gcongr <;> norm_num
  · rw [← Int.lt_add_one_iff, Int.floor_lt, Real.logb_lt_iff_lt_rpow (by norm_num) hx]
    refine h2.trans_le ?_
    rw [show ((900 + 1 : ℤ) : ℝ) = (901 : ℕ) by norm_num, Real.rpow_natCast]
    calc (2 : ℝ) ^ (1024 : ℤ) = ((2 : ℝ) ^ 2) ^ 512 := by rw [← pow_mul, ← zpow_natCast]; norm_num
      _ ≤ 10 ^ 512 := by gcongr; norm_num
      _ ≤ 10 ^ 901 := by gcongr <;> norm_num

theorem sci_exp (P : ℕ) (hP : 1 ≤ P) (x : ℝ) (h : x = 0 ∨ ((2 : ℝ) ^ (-1074 : ℤ) ≤ x ∧ x < 2 ^ (1024 : ℤ))) : (sci P x).1.natAbs < 1000 := by
  rcases h with rfl | ⟨h1, h2⟩
  · simp [sci]
  · have hx : 0 < x := lt_of_lt_of_le (by positivity) h1
    have := logb_bounds x h1 h2
    rcases (sci_spec P hP x hx).2.2 with h | h <;> rw [h] <;> omega

/-! ## Width -/

theorem widthPositive_eq (p : ℤ) : widthPositive p = p + 7 := by
  have h : ⌊Real.logb 10 (-Real.logb 10 ((2 : ℝ) ^ (-1022 : ℤ)))⌋ = 2 := by
    have e : -Real.logb 10 ((2 : ℝ) ^ (-1022 : ℤ)) = 1022 * Real.logb 10 2 := by
      rw [zpow_neg, Real.logb_inv, neg_neg, show (2 : ℝ) ^ (1022 : ℤ) = 2 ^ (1022 : ℕ) by rw [← zpow_natCast]; rfl, Real.logb_pow]; norm_num
    have l1 : (1 / 10 : ℝ) < Real.logb 10 2 := by
      rw [Real.lt_logb_iff_rpow_lt (by norm_num) (by norm_num)]
      have : ((10 : ℝ) ^ (1 / 10 : ℝ)) ^ (10 : ℕ) < 2 ^ (10 : ℕ) := by
        rw [← Real.rpow_natCast, ← Real.rpow_mul (by norm_num)]; norm_num
      exact lt_of_pow_lt_pow_left₀ 10 (by norm_num) this
    have l2 : Real.logb 10 2 < 1 / 2 := by
      rw [Real.logb_lt_iff_lt_rpow (by norm_num) (by norm_num)]
      have : (2 : ℝ) ^ (2 : ℕ) < ((10 : ℝ) ^ (1 / 2 : ℝ)) ^ (2 : ℕ) := by
        rw [← Real.rpow_natCast, ← Real.rpow_natCast, ← Real.rpow_mul (by norm_num)]; norm_num
      exact lt_of_pow_lt_pow_left₀ 2 (by positivity) this
    rw [e, Int.floor_eq_iff]
    have p0 : 0 < 1022 * Real.logb 10 2 := by linarith
    constructor
    · rw [Real.le_logb_iff_rpow_le (by norm_num) p0]
      norm_num
      linarith
    · rw [Real.logb_lt_iff_lt_rpow (by norm_num) p0]
      norm_num
      linarith
  unfold widthPositive
  rw [h]
  ring

theorem effective_pos (p : ℤ) : 1 ≤ effective p := by unfold effective; split_ifs <;> omega

/-- A number fits in its width, with at least one blank after it. -/
theorem plain_length (p : ℤ) (hp : 0 ≤ p) (v : Double) (hv : v.Valid) : ((plain p v).length : ℤ) < p + 8 ∧ (v.Negative = false → 1 ≤ p → ((plain p v).length : ℤ) < p + 7) := by
  have hs : ∀ s, (sgn s).length ≤ 1 ∧ (s = false → (sgn s).length = 0) := by intro s; cases s <;> simp [sgn]
  cases v with
  | nan s => have := hs s; simp only [plain, List.length_append, Double.Negative]; simp; constructor <;> intros <;> omega
  | inf s => have := hs s; simp only [plain, List.length_append, Double.Negative]; simp; constructor <;> intros <;> omega
  | fin s x =>
    have a := hs s
    have b := general_length (effective p) (effective_pos p) _ (sci_exp (effective p) (effective_pos p) x hv) (sci (effective p) x).2
    simp only [plain, List.length_append, Double.Negative]
    have e : effective p = if p = 0 then 1 else p.toNat := by unfold effective; rw [if_neg (by omega)]
    by_cases h0 : p = 0
    · rw [if_pos h0] at e
      have := b.2 e
      constructor <;> intros <;> push_cast <;> omega
    · rw [if_neg h0] at e
      have := b.1
      constructor
      · push_cast; omega
      · intro h _; have := a.2 h; push_cast; omega

theorem plain_chars (p : ℤ) (v : Double) : plain p v ≠ [] ∧ ∀ c ∈ plain p v, isSpace c = false ∧ c ≠ '\n' := by
  have hs : ∀ s, ∀ c ∈ sgn s, isSpace c = false ∧ c ≠ '\n' := by
    intro s c hc
    cases s <;> simp [sgn] at hc
    subst hc; decide
  cases v with
  | nan s =>
    refine ⟨by simp [plain], fun c hc => ?_⟩
    rcases List.mem_append.1 hc with h | h
    · exact hs s c h
    · clear hc
      simp only [List.mem_cons, List.not_mem_nil, or_false] at h
      rcases h with rfl | rfl | rfl <;> decide
  | inf s =>
    refine ⟨by simp [plain], fun c hc => ?_⟩
    rcases List.mem_append.1 hc with h | h
    · exact hs s c h
    · clear hc
      simp only [List.mem_cons, List.not_mem_nil, or_false] at h
      rcases h with rfl | rfl | rfl <;> decide
  | fin s x =>
    obtain ⟨d, r, hg, -⟩ := general_head (effective p) (effective_pos p) (sci (effective p) x).1 (sci (effective p) x).2
    refine ⟨by simp [plain, hg], fun c hc => ?_⟩
    rcases List.mem_append.1 hc with h | h
    · exact hs s c h
    · rcases general_chars _ _ _ c h with h | rfl | rfl | rfl | rfl
      · exact ⟨h.ne.2.2.2.2.2, h.ne.2.2.2.2.1⟩
      all_goals decide

/-! ## Columns -/

theorem columns_space (c : Char) (hc : isSpace c = true) (s : List Char) : columns (c :: s) = columns s := by
  unfold columns
  rw [List.splitOnP_cons, if_pos hc]
  simp

theorem columns_spaces (k : ℕ) (s : List Char) : columns (List.replicate k ' ' ++ s) = columns s := by
  induction k with
  | zero => simp
  | succ k ih => rw [List.replicate_succ, List.cons_append, columns_space _ (by decide), ih]

theorem columns_token (t : List Char) (h : t ≠ []) (ht : ∀ c ∈ t, isSpace c = false) (c : Char) (hc : isSpace c = true) (s : List Char) : columns (t ++ c :: s) = t :: columns s := by
  unfold columns
  rw [List.splitOnP_append_cons_of_forall_mem ht c hc]
  simp [h]

theorem columns_last (t : List Char) (h : t ≠ []) (ht : ∀ c ∈ t, isSpace c = false) : columns t = [t] := by
  unfold columns
  rw [List.splitOnP_eq_singleton ht]
  simp [h]

theorem columns_adjusted (f : Form) (t : List Char) (h : t ≠ []) (ht : ∀ c ∈ t, isSpace c = false) (hl : (t.length : ℤ) < f.width) (s : List Char) : columns (adjusted f t ++ s) = t :: columns s := by
  unfold adjusted
  obtain ⟨k, hk⟩ : ∃ k, f.width.toNat - t.length = k + 1 := ⟨f.width.toNat - t.length - 1, by omega⟩
  rw [hk, List.append_assoc, List.replicate_succ, List.cons_append, columns_token t h ht ' ' (by decide), columns_spaces]

theorem columns_bound (p : ℤ) (hp : 0 ≤ p) (v : Double) (hv : v.Valid) (s : List Char) : columns (bound (form p) v ++ s) = plain p v :: columns s := by
  refine columns_adjusted _ _ (plain_chars p v).1 (fun c hc => ((plain_chars p v).2 c hc).1) ?_ s
  have := (plain_length p hp v hv).1
  show _ < widthAny p
  rw [widthAny, widthPositive_eq]
  exact lt_of_lt_of_eq this (by ring)

theorem columns_positive (p : ℤ) (v : Double) (hv : v.Valid) (hn : v.Negative = false) (s : List Char) : columns (bound (positive p) v ++ s) = plain (max 6 p) v :: columns s := by
  refine columns_adjusted _ _ (plain_chars _ v).1 (fun c hc => ((plain_chars _ v).2 c hc).1) ?_ s
  have := (plain_length (max 6 p) (by omega) v hv).2 hn (by omega)
  show _ < widthPositive (max 6 p)
  rw [widthPositive_eq]
  exact this

end CppQED.FormDouble
