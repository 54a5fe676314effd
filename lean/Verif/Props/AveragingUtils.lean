import Verif.Lemmas.AveragingUtils

/-!
# Streaming of reduced density operators and collections of averages: C94, C95, C96
-/

namespace CppQED.AvgUtils
open CppQED.MII (Idx)
open CppQED.Spec CppQED.Slice
open ComplexConjugate

/-! ## C94: every column carries the label of the matrix element it contains -/

/-- **C94.** There is a list of columns, independent of the state, consisting of the diagonal, and if asked for of the real and imaginary parts of the strict upper triangle, over all the indices in lexicographic order; the key
lists the labels, and `average` the values of these columns, in the same order, followed by the additional labels, if there are off-diagonals. -/
theorem rdo_columns (lb ub : Idx) (hv : ValidBounds lb ub) (dim : ℕ) (hm : (dim : ℤ) = boxSize lb ub) :
    ∃ L : List Idx, (∀ idx, idx ∈ L ↔ InBox lb ub idx) ∧ L.Pairwise (· < ·) ∧ L.length = dim ∧
      ∀ fuel, dim < fuel → ∀ (off : Bool) (sh : Idx → String) (subsequent : List String) (ρ : Idx → Idx → ℂ),
        labels lb ub sh fuel off subsequent = some ((rdoEntries L off).map (Entry.label sh) ++ if off then subsequent else []) ∧
        average lb ub dim fuel off ρ = some ((rdoEntries L off).map (Entry.value ρ)) := by
  obtain ⟨b1, _, b3, b4⟩ := Deflate.box_list lb ub hv dim hm
  refine ⟨List.iterate (MII.inc lb ub) lb dim, b3, b4, by simp, fun fuel hf off sh subsequent ρ => ⟨?_, ?_⟩⟩
  · have h0 := b1 0 (by omega) fuel hf
    simp only [Function.iterate_zero, id_eq, Nat.sub_zero] at h0
    unfold labels
    rw [MII.begin, h0]
    cases off with
    | false => simp [rdoEntries, Function.comp_def, Entry.label, diagLabel]
    | true =>
      have h1 := offLabelLoop_eq lb ub hv dim hm sh fuel hf dim 0 (by omega) fuel hf ((List.iterate (MII.inc lb ub) lb dim).map (diagLabel sh))
      simp only [Function.iterate_zero, id_eq] at h1
      simp only [Bool.not_true, Bool.false_eq_true, if_false, h1, Option.map_some]
      have e1 : ∀ a b : String, "real[" ++ "rho_" ++ a ++ ";" ++ b ++ "]" = "real[rho_" ++ a ++ ";" ++ b ++ "]" := fun a b => by rw [show "real[" ++ "rho_" = "real[rho_" from rfl]
      have e2 : ∀ a b : String, "imag[" ++ "rho_" ++ a ++ ";" ++ b ++ "]" = "imag[rho_" ++ a ++ ";" ++ b ++ "]" := fun a b => by rw [show "imag[" ++ "rho_" = "imag[rho_" from rfl]
      simp [rdoEntries, Function.comp_def, Entry.label, List.map_flatMap, offLabels, diagLabel, e1, e2]
  · have hd : Deflate.deflate lb ub dim fuel ρ off = some (flatten (List.iterate (MII.inc lb ub) lb dim) ρ off) := by
      cases off with
      | false => simp [Deflate.deflate, flatten, Deflate.diagLoop_eq]
      | true =>
        have hup := Deflate.upperPairs_length (List.iterate (MII.inc lb ub) lb dim)
        rw [List.length_iterate] at hup
        simp only [Deflate.deflate, flatten, if_true, Deflate.diagLoop_eq]
        have := Deflate.offLoop_eq lb ub hv dim hm ρ fuel hf dim 0 (by omega) fuel hf ((List.iterate (MII.inc lb ub) lb dim).map (fun i => (ρ i i).re))
          (by simp only [Function.iterate_zero, id_eq, List.length_map, List.length_iterate]; omega)
        simpa only [Function.iterate_zero, id_eq] using this
    rw [average, hd, flatten_eq_entries]

/-- **C94.** In particular, without additional labels the number of averages is the one announced, so that `average` does not throw. -/
theorem rdo_average_number (lb ub : Idx) (hv : ValidBounds lb ub) (dim : ℕ) (hm : (dim : ℤ) = boxSize lb ub) (fuel : ℕ) (hf : dim < fuel) (off : Bool) (sh : Idx → String) (ρ : Idx → Idx → ℂ) :
    ∃ ls av, labels lb ub sh fuel off [] = some ls ∧ average lb ub dim fuel off ρ = some av ∧ av.length = ls.length := by
  obtain ⟨L, -, -, -, h⟩ := rdo_columns lb ub hv dim hm
  obtain ⟨h1, h2⟩ := h fuel hf off sh [] ρ
  exact ⟨_, _, h1, h2, by simp⟩

/-- Two qbits, with off-diagonals. -/
example (ρ : Idx → Idx → ℂ) := rdo_average_number [0, 0] [1, 1] ⟨by decide, rfl, by decide⟩ 4 (by decide) 5 (by decide) true toString ρ

/-! ## C95: negativity of a reduced density operator -/

/-- **C95.** On averages which consist of the elements of a density operator and of one more number, `process` replaces the latter by the negativity of this density operator, whatever the newly allocated storage contained, and leaves all
the others as they were. -/
theorem negProcess_spec_partial (V : List ℕ) (lb ub : Idx) (hv : ValidBounds lb ub) (hV : V = [] ∨ ValidAxes lb.length V) (dim : ℕ) (hm : (dim : ℤ) = boxSize lb ub) (fuel : ℕ) (hf : dim < fuel)
    (m0 : ℕ → ℕ → ℂ) (rho : Arr ℂ) (hρ : ∀ i j, InBox lb ub i → InBox lb ub j → rho (j ++ i) = conj (rho (i ++ j))) (x : ℝ) :
    ∃ av, average lb ub dim fuel true (fun i j => rho (i ++ j)) = some av ∧ negProcess V lb ub dim m0 (av ++ [x]) = av ++ [PTrace.negPT lb.length V lb ub rho] := by
  obtain ⟨b1, b2, b3, b4⟩ := Deflate.box_list lb ub hv dim hm
  have hd : average lb ub dim fuel true (fun i j => rho (i ++ j)) = some (flatten (List.iterate (MII.inc lb ub) lb dim) (fun i j => rho (i ++ j)) true) := by
    have hup := Deflate.upperPairs_length (List.iterate (MII.inc lb ub) lb dim)
    rw [List.length_iterate] at hup
    simp only [average, Deflate.deflate, flatten, if_true, Deflate.diagLoop_eq]
    have := Deflate.offLoop_eq lb ub hv dim hm (fun i j => rho (i ++ j)) fuel hf dim 0 (by omega) fuel hf ((List.iterate (MII.inc lb ub) lb dim).map (fun i => (rho (i ++ i)).re))
      (by simp only [Function.iterate_zero, id_eq, List.length_map, List.length_iterate]; omega)
    simpa only [Function.iterate_zero, id_eq] using this
  refine ⟨_, hd, ?_⟩
  have hit : List.iterate (MII.inc lb ub) lb dim = (List.range dim).map fun k => (MII.inc lb ub)^[k] lb := by
    apply List.ext_getElem <;> simp [List.getElem_iterate]
  have hbox : ∀ k < dim, InBox lb ub ((MII.inc lb ub)^[k] lb) := fun k hk => (b3 _).1 (by rw [hit]; exact List.mem_map.2 ⟨k, List.mem_range.2 hk, rfl⟩)
  set σ : ℕ → ℕ → ℂ := fun a b => rho ((MII.inc lb ub)^[a] lb ++ (MII.inc lb ub)^[b] lb) with hσ
  have hfl : flatten (List.iterate (MII.inc lb ub) lb dim) (fun i j => rho (i ++ j)) true = flatten (List.range dim) σ true := by
    simp only [flatten, hit, List.map_map, if_true, upperPairs_map, List.flatMap_map]
    rfl
  rw [hfl, negProcess]
  have hset : ∀ (l : List ℝ) (x y : ℝ), (l ++ [x]).set ((l ++ [x]).length - 1) y = l ++ [y] := by
    intro l x y; simp
  rw [hset]
  congr 2
  apply negPT_congr lb.length V lb ub hV hv rfl
  intro i j hi hj
  obtain ⟨a, ha, rfl⟩ := List.mem_map.1 (hit ▸ (b3 i).2 hi)
  obtain ⟨b, hb, rfl⟩ := List.mem_map.1 (hit ▸ (b3 j).2 hj)
  rw [List.mem_range] at ha hb
  have hlen : ((MII.inc lb ub)^[a] lb).length = lb.length := hi.1
  rw [ofMatrix, List.take_left' hlen, List.drop_left' hlen, address_iterate lb ub hv, address_iterate lb ub hv,
    negMatrix_eq dim m0 σ (fun a ha b hb => hρ _ _ (hbox a ha) (hbox b hb)) [x] a b ha hb]

/-- **C95.** Since the columns to be averaged are linear in the density operator, processing the average over several states yields the negativity of the averaged density operator (and not the average of the negativities). -/
theorem average_linear (lb ub : Idx) (hv : ValidBounds lb ub) (dim : ℕ) (hm : (dim : ℤ) = boxSize lb ub) (fuel : ℕ) (hf : dim < fuel) (off : Bool) (w w' : ℝ) (ρ ρ' : Idx → Idx → ℂ) :
    ∃ av av', average lb ub dim fuel off ρ = some av ∧ average lb ub dim fuel off ρ' = some av' ∧
      average lb ub dim fuel off (fun i j => w * ρ i j + w' * ρ' i j) = some (List.zipWith (fun a b => w * a + w' * b) av av') := by
  obtain ⟨L, -, -, -, h⟩ := rdo_columns lb ub hv dim hm
  have h' := fun ρ => (h fuel hf off (fun _ => "") [] ρ).2
  refine ⟨_, _, h' ρ, h' ρ', ?_⟩
  rw [h', List.zipWith_map, List.zipWith_self]
  congr 1
  refine List.map_congr_left fun e _ => ?_
  cases e <;> simp [Entry.value]

/-- **C95, violated by the code.** `average` resizes the array of the averages by `resize`, which does not preserve the contents: what is returned for any two states is the same, namely the previous contents of the storage allocated. -/
theorem negAverage_lost (mem : ℕ → ℝ) (lb ub : Idx) (hv : ValidBounds lb ub) (dim : ℕ) (hm : (dim : ℤ) = boxSize lb ub) (fuel : ℕ) (hf : dim < fuel) (ρ : Idx → Idx → ℂ) :
    negAverage mem lb ub dim fuel ρ = some ((List.range (dim * dim + 1)).map mem) := by
  obtain ⟨L, -, -, -, h⟩ := Deflate.deflate_eq_flatten lb ub hv dim hm
  obtain ⟨h1, h2⟩ := h fuel hf ρ true
  rw [negAverage, average, h1, Option.map_some, blitzResize, if_neg (by omega), h2]; rfl

/-- The hypotheses are met by two qbits, partially transposed in the first, in the state `(|00⟩+|11⟩)(⟨00|+⟨11|)/2`. -/
example (m0 : ℕ → ℕ → ℂ) (x : ℝ) := negProcess_spec_partial [0] [0, 0] [1, 1] ⟨by decide, rfl, by decide⟩ (.inr ⟨by decide, by decide, by decide⟩) 4 (by decide) 5 (by decide) m0
  (fun i => if i = [0, 0, 0, 0] ∨ i = [0, 0, 1, 1] ∨ i = [1, 1, 0, 0] ∨ i = [1, 1, 1, 1] then 1 / 2 else 0)
  (by
    intro i j hi hj
    have h : ∀ i, InBox [0, 0] [1, 1] i → i = [0, 0] ∨ i = [0, 1] ∨ i = [1, 0] ∨ i = [1, 1] := by
      intro i hi
      have := (mem_boxFinset [0, 0] [1, 1] i rfl).2 hi
      rw [PTrace.box22] at this
      simpa using this
    rcases h i hi with rfl | rfl | rfl | rfl <;> rcases h j hj with rfl | rfl | rfl | rfl <;> simp [map_ofNat]) x

/-! ## C96: collections of averages -/

variable {M : Type}

theorem mapM_average (t : ℝ) (m : M) : ∀ es : List (Element M), (∀ a, (es.mapM fun e => e.average t m) = some a ↔ List.Forall₂ (fun e x => e.averageV t m = some x ∧ x.length = e.nAvr) es a) := by
  intro es
  induction es with
  | nil => intro a; cases a <;> simp
  | cons e es ih =>
    intro a
    rw [List.mapM_cons]
    have hav : ∀ x, e.average t m = some x ↔ e.averageV t m = some x ∧ x.length = e.nAvr := by
      intro x
      rw [Element.average]
      cases e.averageV t m with
      | none => simp
      | some y =>
        rw [Option.bind_some]
        by_cases h : y.length = e.nAvr
        · simp only [h, ne_eq, not_true_eq_false, if_false, Option.some.injEq]
          exact ⟨fun e => ⟨e, e ▸ h⟩, fun e => e.1⟩
        · simp only [h, ne_eq, not_false_eq_true, if_true, Option.some.injEq, reduceCtorEq, false_iff, not_and]
          rintro rfl; exact h
    simp only [Option.pure_def, Option.bind_eq_bind, Option.bind_eq_some_iff]
    constructor
    · rintro ⟨x, hx, xs, hxs, h⟩
      cases h
      exact .cons ((hav x).1 hx) ((ih xs).1 hxs)
    · rintro (_ | ⟨h1, h2⟩)
      exact ⟨_, (hav _).2 h1, _, (ih _).2 h2, rfl⟩

/-- **C96.** A collection is made from at least one member. It has the title of the first member, and the labels of all of them one after the other. The averages are those of the members one after the other; there is an exception exactly if there is one for a
member. -/
theorem collecting_average (es : List (Element M)) :
    (collecting es = none ↔ es = []) ∧ ∀ c, collecting es = some c →
      (∀ e, es.head? = some e → c.title = e.title) ∧ c.labels = es.flatMap Element.labels ∧ c.nAvr = (es.map Element.nAvr).sum ∧
      (∀ t m av, c.average t m = some av ↔ ∃ avs : List (List ℝ), List.Forall₂ (fun e x => e.average t m = some x) es avs ∧ av = avs.flatten) ∧
      ∀ t m, c.average t m = none ↔ ∃ e ∈ es, e.average t m = none := by
  cases es with
  | nil => exact ⟨by simp [collecting], by simp [collecting]⟩
  | cons e es =>
    refine ⟨by simp [collecting], fun c hc => ?_⟩
    simp only [collecting, Option.some.injEq] at hc
    have hlab : c.labels = ((e :: es).map Element.labels).flatten := by rw [← hc]
    have hn : c.nAvr = ((e :: es).map Element.nAvr).sum := by
      rw [Element.nAvr, hlab, List.length_flatten, List.map_map]; rfl
    have hF : ∀ t m (es : List (Element M)) (avs : List (List ℝ)), (es.mapM fun e => e.average t m) = some avs → (avs.map List.length).sum = (es.map Element.nAvr).sum := by
      intro t m es avs h
      have := (mapM_average t m es avs).1 h
      induction this with
      | nil => rfl
      | cons h1 _ ih =>
        rename_i ht
        simp only [List.map_cons, List.sum_cons, h1.2]
        rw [ih ((mapM_average t m _ _).2 ht)]
    have hav : ∀ t m, c.average t m = ((e :: es).mapM fun (e : Element M) => e.average t m).map List.flatten := by
      intro t m
      rw [Element.average, hn, ← hc]
      simp only
      cases hM : ((e :: es).mapM fun (e : Element M) => e.average t m) with
      | none => rfl
      | some avs =>
        have h1 := hF t m _ _ hM
        simp only [Option.map_some, Option.bind_some]
        rw [Composite.concatenate_eq avs _ (by
          rw [List.length_replicate, List.length_flatten, List.map_map, h1]; rfl), if_neg (by rw [List.length_flatten, h1]; simp)]
    have hA : ∀ t m (es : List (Element M)) (avs : List (List ℝ)), (es.mapM fun e => e.average t m) = some avs ↔ List.Forall₂ (fun e x => e.average t m = some x) es avs := by
      intro t m es
      induction es with
      | nil => intro avs; cases avs <;> simp
      | cons e es ih =>
        intro avs
        rw [List.mapM_cons]
        simp only [Option.pure_def, Option.bind_eq_bind, Option.bind_eq_some_iff]
        constructor
        · rintro ⟨x, hx, xs, hxs, h⟩
          cases h
          exact .cons hx ((ih xs).1 hxs)
        · rintro (_ | ⟨h1, h2⟩)
          exact ⟨_, h1, _, (ih _).2 h2, rfl⟩
    refine ⟨fun e' he => ?_, by rw [hlab, List.flatMap_def], hn, fun t m av => ?_, fun t m => ?_⟩
    · simp only [List.head?_cons, Option.some.injEq] at he
      rw [← hc, ← he]
    · rw [hav, Option.map_eq_some_iff]
      simp only [hA]
      exact ⟨fun ⟨a, h1, h2⟩ => ⟨a, h1, h2.symm⟩, fun ⟨a, h1, h2⟩ => ⟨a, h1, h2.symm⟩⟩
    · rw [hav, Option.map_eq_none_iff]
      generalize e :: es = es
      clear hn hlab hav hc
      induction es with
      | nil => simp
      | cons e es ih =>
        rw [List.mapM_cons]
        cases he : e.average t m with
        | none => simp [he]
        | some x =>
          cases hes : (es.mapM fun e => e.average t m) with
          | none =>
            obtain ⟨e', h1, h2⟩ := ih.1 hes
            simpa [he, hes] using ⟨e', h1, h2⟩
          | some xs =>
            have : ¬ ∃ e ∈ es, e.average t m = none := fun h => by rw [ih.2 h] at hes; cases hes
            simp [he, hes]
            push Not at this
            exact this

/-- **C96.** Processing hands to every member exactly its own columns, and only to members which have any. -/
theorem collecting_process (L : List (Element M × List ℝ)) (c : Element M) (hc : collecting (L.map Prod.fst) = some c) (hlen : ∀ x ∈ L, x.2.length = x.1.nAvr)
    (hproc : ∀ x ∈ L, (x.1.processV x.2).length = x.2.length) :
    c.processV (L.flatMap Prod.snd) = L.flatMap (fun x => if x.1.nAvr = 0 then [] else x.1.processV x.2) := by
  have key : ∀ (L : List (Element M × List ℝ)), (∀ x ∈ L, x.2.length = x.1.nAvr) → (∀ x ∈ L, (x.1.processV x.2).length = x.2.length) → ∀ (pre : List ℝ) (u : Int),
      ((L.map Prod.fst).foldl doIt (pre ++ L.flatMap Prod.snd, (pre.length : Int) - 1, u)).1 = pre ++ L.flatMap (fun x => if x.1.nAvr = 0 then [] else x.1.processV x.2) := by
    intro L
    induction L with
    | nil => intro _ _ pre u; rfl
    | cons x L ih =>
      intro h1 h2 pre u
      have hx := h1 x (by simp)
      have hx2 := h2 x (by simp)
      rw [List.map_cons, List.foldl_cons, List.flatMap_cons, List.flatMap_cons, ← List.append_assoc, ← List.append_assoc]
      by_cases h0 : x.1.nAvr = 0
      · have hnil : x.2 = [] := List.length_eq_zero_iff.1 (by omega)
        have hd : doIt (pre ++ x.2 ++ L.flatMap Prod.snd, (pre.length : Int) - 1, u) x.1 = (pre ++ L.flatMap Prod.snd, (pre.length : Int) - 1, (pre.length : Int) - 1) := by
          simp [doIt, h0, hnil]
        rw [hd, if_pos h0, List.append_nil]
        exact ih (fun y hy => h1 y (by simp [hy])) (fun y hy => h2 y (by simp [hy])) _ _
      · have hd : doIt (pre ++ x.2 ++ L.flatMap Prod.snd, (pre.length : Int) - 1, u) x.1 =
            (pre ++ x.1.processV x.2 ++ L.flatMap Prod.snd, ((pre ++ x.1.processV x.2).length : Int) - 1, (pre.length : Int) - 1) := by
          unfold doIt
          simp only
          rw [if_pos (by omega), Composite.readRange_block pre x.2 _ _ hx, Composite.writeRange_block pre x.2 _ _ _ hx]
          simp only [Prod.mk.injEq, true_and, and_true]
          rw [List.length_append, hx2, hx]; push_cast; ring
        rw [hd, if_neg h0]
        exact ih (fun y hy => h1 y (by simp [hy])) (fun y hy => h2 y (by simp [hy])) _ _
  cases L with
  | nil => simp [collecting] at hc
  | cons x L =>
    simp only [List.map_cons, collecting, Option.some.injEq] at hc
    rw [← hc]
    simpa using key (x :: L) hlen hproc [] 0

/-- The hypotheses are met by two members, the second of which squares its column. -/
example : ∃ c : Element Unit, collecting [⟨"A", ["x", "y"], fun _ _ => some [1, 2], id⟩, ⟨"B", ["z"], fun _ _ => some [3], fun l => l.map (· ^ 2)⟩] = some c ∧
    c.processV [1, 2, 3] = [1, 2, 9] := by
  refine ⟨_, rfl, ?_⟩
  have := collecting_process (M := Unit) [(⟨"A", ["x", "y"], fun _ _ => some [1, 2], id⟩, [1, 2]), (⟨"B", ["z"], fun _ _ => some [3], fun l => l.map (· ^ 2)⟩, [3])] _ rfl
    (by simp [Element.nAvr]) (by simp)
  refine Eq.trans this ?_
  rw [List.flatMap_cons, List.flatMap_cons, List.flatMap_nil, if_neg (by simp [Element.nAvr]), if_neg (by simp [Element.nAvr])]
  norm_num

end CppQED.AvgUtils
