import Verif.Model.Deflate
import Verif.Spec.Deflate
import Verif.Props.MultiIndex

/-! Helper lemmas for `Verif.Props.Deflate`. -/

namespace CppQED.Deflate
open CppQED.MII (Idx)
open CppQED.Spec
open ComplexConjugate

/-- the list of the indices of the box, as iterates -/
theorem box_list (lb ub : Idx) (hv : ValidBounds lb ub) (m : ℕ) (hm : (m : ℤ) = boxSize lb ub) :
    (∀ k ≤ m, ∀ fuel, m < fuel → MII.loop lb ub fuel ((MII.inc lb ub)^[k] lb) = some (List.iterate (MII.inc lb ub) ((MII.inc lb ub)^[k] lb) (m - k))) ∧
    (List.iterate (MII.inc lb ub) lb m).Nodup ∧ (∀ idx, idx ∈ List.iterate (MII.inc lb ub) lb m ↔ InBox lb ub idx) ∧
    (List.iterate (MII.inc lb ub) lb m).Pairwise (· < ·) := by
  have ht := MII.total_eq_boxSize_aux lb ub hv.2.1 hv.1
  have h1 : ∀ k ≤ m, ∀ fuel, m < fuel → MII.loop lb ub fuel ((MII.inc lb ub)^[k] lb) =
      some (List.iterate (MII.inc lb ub) ((MII.inc lb ub)^[k] lb) (m - k)) := by
    intro k hk fuel hf
    obtain ⟨a1, a2, a3⟩ := MII.inc_iter lb ub hv k lb rfl (MII.tail_of_box (MII.inBox_lb hv) hv.1)
    apply MII.loop_eq lb ub hv _ _ a1 a2 _ fuel (by omega)
    rw [a3, MII.val_lb, ht, ← hm]; omega
  obtain ⟨L, l1, l2, l3, l4, l5⟩ := MII.mii_visits_box_once_lex lb ub hv
  have : L = List.iterate (MII.inc lb ub) lb m := by
    have e1 := l1 (max L.length m + 1) (by omega)
    have e2 := h1 0 (by omega) (max L.length m + 1) (by omega)
    simp only [Function.iterate_zero, id_eq, Nat.sub_zero] at e2
    rw [MII.begin, e2] at e1
    exact (Option.some.inj e1).symm
  subst this
  exact ⟨h1, l3, l2, l4⟩

theorem upperPairs_length {α : Type*} (L : List α) : 2 * (upperPairs L).length + L.length = L.length * L.length := by
  induction L with
  | nil => rfl
  | cons x xs ih => simp only [upperPairs, List.length_append, List.length_map, List.length_cons]; nlinarith

theorem iterate_succ_eq (f : Idx → Idx) (a : Idx) (n : ℕ) : List.iterate f a (n + 1) = a :: List.iterate f (f a) n := rfl

theorem flatMap_pair_length {α : Type*} (L : List α) (f g : α → ℝ) : (L.flatMap (fun p => [f p, g p])).length = 2 * L.length := by
  induction L with
  | nil => rfl
  | cons x xs ih => simp only [List.flatMap_cons, List.length_append, List.length_cons, ih]; simp; omega

theorem offLoop_eq (lb ub : Idx) (hv : ValidBounds lb ub) (m : ℕ) (hm : (m : ℤ) = boxSize lb ub) (ρ : Idx → Idx → ℂ) (jfuel : ℕ)
    (hj : m < jfuel) (n k : ℕ) (hk : k + n = m) (fuel : ℕ) (hf : n < fuel) (res : List ℝ)
    (hres : res.length + 2 * (upperPairs (List.iterate (MII.inc lb ub) ((MII.inc lb ub)^[k] lb) n)).length = m * m) :
    offLoop lb ub ρ m jfuel fuel ((MII.inc lb ub)^[k] lb) res =
      some (res ++ (upperPairs (List.iterate (MII.inc lb ub) ((MII.inc lb ub)^[k] lb) n)).flatMap (fun p => [(ρ p.1 p.2).re, (ρ p.1 p.2).im])) := by
  induction n generalizing k fuel res with
  | zero =>
    obtain ⟨fuel, rfl⟩ : ∃ f, fuel = f + 1 := ⟨fuel - 1, by omega⟩
    simp only [List.iterate, upperPairs, List.length_nil, List.flatMap_nil, List.append_nil] at hres ⊢
    rw [offLoop, if_neg (by omega)]
  | succ n ih =>
    obtain ⟨fuel, rfl⟩ : ∃ f, fuel = f + 1 := ⟨fuel - 1, by omega⟩
    have hit : MII.inc lb ub ((MII.inc lb ub)^[k] lb) = (MII.inc lb ub)^[k+1] lb := (Function.iterate_succ_apply' _ _ _).symm
    rw [iterate_succ_eq, hit] at hres ⊢
    simp only [upperPairs, List.length_append, List.length_map, List.length_iterate, List.flatMap_append, List.flatMap_map] at hres ⊢
    rw [offLoop]
    split
    · rw [hit, (box_list lb ub hv m hm).1 (k+1) (by omega) jfuel hj]
      have hmk : m - (k + 1) = n := by omega
      simp only [hmk]
      rw [ih (k+1) (by omega) fuel (by omega)]
      · simp [List.append_assoc]
      · rw [List.length_append, flatMap_pair_length, List.length_iterate]; omega
    · -- nothing left
      have : n = 0 := by omega
      subst this
      simp [List.iterate, upperPairs]

theorem inflateOff_eq (lb ub : Idx) (hv : ValidBounds lb ub) (m : ℕ) (hm : (m : ℤ) = boxSize lb ub) (fl : List ℝ) (jfuel : ℕ)
    (hj : m < jfuel) (n k : ℕ) (hk : k + n = m) (fuel : ℕ) (hf : n < fuel) (st : (Idx → Idx → ℂ) × ℕ)
    (hres : st.2 + 2 * (upperPairs (List.iterate (MII.inc lb ub) ((MII.inc lb ub)^[k] lb) n)).length = m * m) :
    inflateOff lb ub fl m jfuel fuel ((MII.inc lb ub)^[k] lb) st =
      some ((upperPairs (List.iterate (MII.inc lb ub) ((MII.inc lb ub)^[k] lb) n)).foldl (fun st p => inflateStep fl p.1 st p.2) st).1 := by
  have hlen : ∀ (js : List Idx) (i : Idx) (st : (Idx → Idx → ℂ) × ℕ), (js.foldl (inflateStep fl i) st).2 = st.2 + 2 * js.length := by
    intro js i
    induction js with
    | nil => intro st; rfl
    | cons j js ih => intro st; rw [List.foldl_cons, ih]; simp only [inflateStep, List.length_cons]; omega
  induction n generalizing k fuel st with
  | zero =>
    obtain ⟨fuel, rfl⟩ : ∃ f, fuel = f + 1 := ⟨fuel - 1, by omega⟩
    simp only [List.iterate, upperPairs, List.length_nil, List.foldl_nil] at hres ⊢
    rw [inflateOff, if_neg (by omega)]
  | succ n ih =>
    obtain ⟨fuel, rfl⟩ : ∃ f, fuel = f + 1 := ⟨fuel - 1, by omega⟩
    have hit : MII.inc lb ub ((MII.inc lb ub)^[k] lb) = (MII.inc lb ub)^[k+1] lb := (Function.iterate_succ_apply' _ _ _).symm
    rw [iterate_succ_eq, hit] at hres ⊢
    simp only [upperPairs, List.length_append, List.length_map, List.length_iterate, List.foldl_append, List.foldl_map] at hres ⊢
    rw [inflateOff]
    split
    · rw [hit, (box_list lb ub hv m hm).1 (k+1) (by omega) jfuel hj]
      have hmk : m - (k + 1) = n := by omega
      simp only [hmk]
      rw [ih (k+1) (by omega) fuel (by omega)]
      rw [hlen, List.length_iterate]; omega
    · have : n = 0 := by omega
      subst this
      simp [List.iterate, upperPairs]

theorem mem_upperPairs {α : Type*} {L : List α} (h : L.Nodup) {a b : α} (ha : a ∈ L) (hb : b ∈ L) (hab : a ≠ b) :
    (a, b) ∈ upperPairs L ∨ (b, a) ∈ upperPairs L := by
  induction L with
  | nil => simp at ha
  | cons x xs ih =>
    simp only [upperPairs, List.mem_append, List.mem_map, Prod.mk.injEq]
    rw [List.mem_cons] at ha hb
    rcases ha with rfl | ha
    · rcases hb with rfl | hb
      · exact absurd rfl hab
      · exact Or.inl (Or.inl ⟨b, hb, rfl, rfl⟩)
    · rcases hb with rfl | hb
      · exact Or.inr (Or.inl ⟨a, ha, rfl, rfl⟩)
      · rcases ih (List.nodup_cons.1 h).2 ha hb with h | h
        · exact Or.inl (Or.inr h)
        · exact Or.inr (Or.inr h)

theorem upperPairs_mem {α : Type*} {L : List α} {p : α × α} (h : p ∈ upperPairs L) : p.1 ∈ L ∧ p.2 ∈ L := by
  induction L with
  | nil => simp [upperPairs] at h
  | cons x xs ih =>
    simp only [upperPairs, List.mem_append, List.mem_map] at h
    rcases h with ⟨y, hy, rfl⟩ | h
    · simp [hy]
    · exact ⟨List.mem_cons_of_mem _ (ih h).1, List.mem_cons_of_mem _ (ih h).2⟩

/-- all cells written are distinct -/
def Separated {α : Type*} (p q : α × α) : Prop := p ≠ q ∧ p ≠ q.swap

theorem upperPairs_separated {α : Type*} {L : List α} (h : L.Nodup) :
    (upperPairs L).Pairwise Separated ∧ ∀ p ∈ upperPairs L, p.1 ≠ p.2 := by
  induction L with
  | nil => simp [upperPairs]
  | cons x xs ih =>
    obtain ⟨hx, hxs⟩ := List.nodup_cons.1 h
    obtain ⟨i1, i2⟩ := ih hxs
    constructor
    · simp only [upperPairs]
      rw [List.pairwise_append]
      refine ⟨?_, i1, ?_⟩
      · rw [List.pairwise_map]
        refine List.Pairwise.imp_of_mem ?_ hxs
        intro a b ha hb hab
        refine ⟨fun h => hab (Prod.ext_iff.1 h).2, fun h => ?_⟩
        have h2 : x = b := (Prod.ext_iff.1 h).1
        exact hx (h2 ▸ hb)
      · intro p hp q hq
        obtain ⟨y, hy, rfl⟩ := List.mem_map.1 hp
        have hq' := upperPairs_mem hq
        refine ⟨fun h => ?_, fun h => ?_⟩
        · have h2 : x = q.1 := (Prod.ext_iff.1 h).1
          exact hx (h2 ▸ hq'.1)
        · have h2 : x = q.2 := (Prod.ext_iff.1 h).1
          exact hx (h2 ▸ hq'.2)
    · intro p hp
      simp only [upperPairs, List.mem_append, List.mem_map] at hp
      rcases hp with ⟨y, hy, rfl⟩ | hp
      · intro h; exact hx ((show x = y from h) ▸ hy)
      · exact i2 p hp

theorem set_apply (ρ : Idx → Idx → ℂ) (i j : Idx) (z : ℂ) (a b : Idx) : set ρ i j z a b = if a = i ∧ b = j then z else ρ a b := rfl

/-- writing back the upper triangle of a Hermitian matrix -/
theorem fold_inflate_hermitian (σ : Idx → Idx → ℂ) (P : List (Idx × Idx)) (hσ : ∀ p ∈ P, σ p.2 p.1 = conj (σ p.1 p.2))
    (pre : List ℝ) (ρ : Idx → Idx → ℂ) (a b : Idx) (suf : List ℝ) :
    (P.foldl (fun st p => inflateStep (pre ++ P.flatMap (fun p => [(σ p.1 p.2).re, (σ p.1 p.2).im]) ++ suf) p.1 st p.2) (ρ, pre.length)).1 a b
      = if (a, b) ∈ P ∨ (b, a) ∈ P then σ a b else ρ a b := by
  induction P generalizing pre ρ with
  | nil => simp
  | cons p P ih =>
    rw [List.foldl_cons]
    have hfl : pre ++ (p :: P).flatMap (fun p => [(σ p.1 p.2).re, (σ p.1 p.2).im]) ++ suf =
        (pre ++ [(σ p.1 p.2).re, (σ p.1 p.2).im]) ++ P.flatMap (fun p => [(σ p.1 p.2).re, (σ p.1 p.2).im]) ++ suf := by
      simp [List.flatMap_cons, List.append_assoc]
    rw [hfl]
    have g0 : ((pre ++ [(σ p.1 p.2).re, (σ p.1 p.2).im]) ++ P.flatMap (fun p => [(σ p.1 p.2).re, (σ p.1 p.2).im]) ++ suf).getD pre.length 0 = (σ p.1 p.2).re := by
      simp [List.getD_eq_getElem?_getD]
    have g1 : ((pre ++ [(σ p.1 p.2).re, (σ p.1 p.2).im]) ++ P.flatMap (fun p => [(σ p.1 p.2).re, (σ p.1 p.2).im]) ++ suf).getD (pre.length + 1) 0 = (σ p.1 p.2).im := by
      simp [List.getD_eq_getElem?_getD]
    have hstep : ∀ fl : List ℝ, fl.getD pre.length 0 = (σ p.1 p.2).re → fl.getD (pre.length + 1) 0 = (σ p.1 p.2).im →
        inflateStep fl p.1 (ρ, pre.length) p.2 = (set (set ρ p.1 p.2 (σ p.1 p.2)) p.2 p.1 (conj (σ p.1 p.2)), (pre ++ [(σ p.1 p.2).re, (σ p.1 p.2).im]).length) := by
      intro fl h0 h1
      simp only [inflateStep, h0, h1, Complex.eta]; simp
    rw [hstep _ g0 g1, ih (fun q hq => hσ q (List.mem_cons_of_mem _ hq))]
    have hp := hσ p List.mem_cons_self
    by_cases h : (a, b) ∈ P ∨ (b, a) ∈ P
    · rw [if_pos h, if_pos (by simp only [List.mem_cons]; tauto)]
    · rw [if_neg h]
      simp only [set_apply, List.mem_cons]
      obtain ⟨x, y⟩ := p
      simp only [Prod.mk.injEq]
      simp only at hp
      by_cases h2 : a = y ∧ b = x
      · obtain ⟨rfl, rfl⟩ := h2
        rw [if_pos (by simp), if_pos (by simp), hp]
      · rw [if_neg h2]
        by_cases h3 : a = x ∧ b = y
        · obtain ⟨rfl, rfl⟩ := h3
          rw [if_pos (by simp), if_pos (by simp)]
        · rw [if_neg h3, if_neg]
          push Not at h
          rintro ((h4 | h4) | (h4 | h4))
          · exact h3 h4
          · exact h.1 h4
          · exact h2 ⟨h4.2, h4.1⟩
          · exact h.2 h4

/-- cells not among those written keep their value -/
theorem fold_inflate_other (fl : List ℝ) (P : List (Idx × Idx)) (st : (Idx → Idx → ℂ) × ℕ) (a b : Idx)
    (h : ∀ p ∈ P, ¬ (a = p.1 ∧ b = p.2) ∧ ¬ (a = p.2 ∧ b = p.1)) :
    (P.foldl (fun st p => inflateStep fl p.1 st p.2) st).1 a b = st.1 a b := by
  induction P generalizing st with
  | nil => rfl
  | cons p P ih =>
    rw [List.foldl_cons, ih _ (fun q hq => h q (List.mem_cons_of_mem _ hq))]
    have := h p List.mem_cons_self
    simp only [inflateStep, set_apply]
    rw [if_neg this.2, if_neg this.1]

/-- reading back what was written -/
theorem fold_inflate_read (fl : List ℝ) (P : List (Idx × Idx)) (hP : P.Pairwise Separated) (hd : ∀ p ∈ P, p.1 ≠ p.2)
    (ρ : Idx → Idx → ℂ) (n : ℕ) (hn : n + 2 * P.length ≤ fl.length) :
    P.flatMap (fun p => [((P.foldl (fun st p => inflateStep fl p.1 st p.2) (ρ, n)).1 p.1 p.2).re,
      ((P.foldl (fun st p => inflateStep fl p.1 st p.2) (ρ, n)).1 p.1 p.2).im]) = (fl.drop n).take (2 * P.length) := by
  induction P generalizing ρ n with
  | nil => simp
  | cons p P ih =>
    obtain ⟨h1, h2⟩ := List.pairwise_cons.1 hP
    rw [List.flatMap_cons]
    simp only [List.foldl_cons]
    have hst : inflateStep fl p.1 (ρ, n) p.2 =
      ((inflateStep fl p.1 (ρ, n) p.2).1, n + 2) := rfl
    rw [hst]
    rw [ih h2 (fun q hq => hd q (List.mem_cons_of_mem _ hq)) _ (n + 2) (by simp at hn; omega)]
    have hcell : (P.foldl (fun st p => inflateStep fl p.1 st p.2) ((inflateStep fl p.1 (ρ, n) p.2).1, n + 2)).1 p.1 p.2 =
        ⟨fl.getD n 0, fl.getD (n+1) 0⟩ := by
      rw [fold_inflate_other]
      · simp only [inflateStep, set_apply]
        have := hd p List.mem_cons_self
        rw [if_neg (fun h => this h.1)]; simp
      · intro q hq
        obtain ⟨s1, s2⟩ := h1 q hq
        exact ⟨fun h => s1 (Prod.ext h.1 h.2), fun h => s2 (Prod.ext h.1 h.2)⟩
    rw [hcell]
    simp only [List.length_cons] at hn ⊢
    have e1 : n < fl.length := by omega
    have e2 : n + 1 < fl.length := by omega
    rw [List.drop_eq_getElem_cons e1, List.drop_eq_getElem_cons e2]
    have : 2 * (P.length + 1) = 2 * P.length + 1 + 1 := by omega
    rw [this, List.take_succ_cons, List.take_succ_cons]
    simp [List.getD_eq_getElem?_getD, e1, e2]

/-- the diagonal loop of `inflate` -/
theorem foldl_diag (L : List Idx) (hL : L.Nodup) (v : ℕ → ℝ) (ρ : Idx → Idx → ℂ) (m : ℕ) (hm : m ≤ L.length) (a b : Idx) :
    ((List.range m).foldl (fun ρ k => set ρ (L.getD k []) (L.getD k []) (v k : ℂ)) ρ) a b =
      if a = b ∧ a ∈ L.take m then (v (L.idxOf a) : ℂ) else ρ a b := by
  induction m with
  | zero => simp
  | succ m ih =>
    rw [List.range_succ, List.foldl_append]
    simp only [List.foldl_cons, List.foldl_nil, set_apply]
    rw [ih (by omega)]
    have hlt : m < L.length := by omega
    have hget : L.getD m [] = L[m] := by simp [List.getD_eq_getElem?_getD, hlt]
    rw [hget, List.take_succ_eq_append_getElem hlt]
    simp only [List.mem_append, List.mem_singleton]
    by_cases h : a = L[m] ∧ b = L[m]
    · obtain ⟨rfl, rfl⟩ := h
      rw [if_pos ⟨rfl, rfl⟩, if_pos ⟨rfl, Or.inr rfl⟩, List.Nodup.idxOf_getElem hL]
    · rw [if_neg h]
      by_cases h2 : a = b ∧ a ∈ L.take m
      · rw [if_pos h2, if_pos ⟨h2.1, Or.inl h2.2⟩]
      · rw [if_neg h2, if_neg]
        rintro ⟨rfl, h3 | h3⟩
        · exact h2 ⟨rfl, h3⟩
        · exact h ⟨h3, h3⟩

end CppQED.Deflate
