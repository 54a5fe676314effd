import Verif.Props.CompositePicture
import Verif.Props.BinaryComposite

/-!
# Systems meeting the hypotheses of the theorems on composite systems (C27 to C31, C66, C68, C76, C84)

A composite of three subsystems with dimensions 2, 3 and 2 and two noisy interactions, one of them on the axes 2 and 0 in this order, and a binary system. All the components have jumps, the free ones are in interaction picture and
have averages that are processed.
-/

namespace CppQED.Composite.Cases
open CppQED.MII (Idx)
open CppQED.Slice CppQED.Spec CppQED.PTrace
open ComplexConjugate

/-- The lowering of all the quantum numbers. -/
def low (i j : Idx) : ℂ := if i.map (· + 1) = j then 1 else 0

/-- A coupling of everything with everything. -/
def hop (i j : Idx) : ℂ := if i = j then 0 else Complex.I

/-- The frequencies. -/
noncomputable def freq (a : ℕ) (x : ℤ) : ℂ := Complex.I * (a + 1) * x

/-- A jump. -/
noncomputable def noise (lb ub : Idx) (label : String) : Li where
  nAvr := 1
  streamKey := keyPrinter "Noise" [label]
  average _ m := [(expect lb ub (fun i j => ∑ k ∈ boxFinset lb ub, conj (low k i) * low k j) m).re]
  actWithJ _ _ psi := matAction lb ub low psi
  actWithSuperoperator _ _ rho d := fun i => d i + ∑ u ∈ boxFinset lb ub, ∑ u' ∈ boxFinset lb ub, low (i.take lb.length) u * rho (u ++ u') * conj (low (i.drop lb.length) u')

/-- The averages: a quantum number and its square, processed into mean and variance. -/
noncomputable def display (lb ub : Idx) : Av where
  nAvr := 2
  streamKey := keyPrinter "Number" ["<x>", "VAR(x)"]
  average _ m := [(expect lb ub (fun i j => if i = j then (i.getD 0 0 : ℂ) else 0) m).re, (expect lb ub (fun i j => if i = j then (i.getD 0 0 : ℂ) ^ 2 else 0) m).re]
  process x := [x.getD 0 0, x.getD 1 0 - x.getD 0 0 ^ 2]
  stream _ := ["mean", "variance"]

noncomputable def free (lb ub : Idx) (k : ℕ) : Part where
  axes := []
  ex := some fun t t0 psi i => psi i * Complex.exp (-(freq k (i.getD 0 0) * (t - t0 : ℝ)))
  applicable := true
  ha := some fun t t0 psi d i => d i + matAction (sliceBound [k] lb) (sliceBound [k] ub) (inPicture freq [k] hop (t - t0)) psi i
  li := some (noise (sliceBound [k] lb) (sliceBound [k] ub) "decay")
  av := some (display (sliceBound [k] lb) (sliceBound [k] ub))

noncomputable def coupling (lb ub : Idx) (V : List ℕ) : Part where
  axes := V
  ex := none
  applicable := false
  ha := some fun t t0 psi d i => d i + matAction (sliceBound V lb) (sliceBound V ub) (inPicture freq V hop (t - t0)) psi i
  li := some (noise (sliceBound V lb) (sliceBound V ub) "joint decay")
  av := none

noncomputable def three : Comp := ⟨3, [0, 0, 0], [1, 2, 1], [free [0, 0, 0] [1, 2, 1] 0, free [0, 0, 0] [1, 2, 1] 1, free [0, 0, 0] [1, 2, 1] 2], [coupling [0, 0, 0] [1, 2, 1] [2, 0], coupling [0, 0, 0] [1, 2, 1] [1, 2]]⟩

noncomputable def two : Bin := ⟨[0, 0], [1, 2], free [0, 0] [1, 2] 0, free [0, 0] [1, 2] 1, coupling [0, 0] [1, 2] [0, 1]⟩

theorem three_parts : three.parts = [{ free [0, 0, 0] [1, 2, 1] 0 with axes := [0] }, { free [0, 0, 0] [1, 2, 1] 1 with axes := [1] }, { free [0, 0, 0] [1, 2, 1] 2 with axes := [2] },
    coupling [0, 0, 0] [1, 2, 1] [2, 0], coupling [0, 0, 0] [1, 2, 1] [1, 2]] := rfl

theorem three_ok : three.Ok := by
  refine ⟨⟨by decide, by decide, ?_⟩, rfl, ?_⟩
  · intro j hj
    have : j < 3 := hj
    interval_cases j <;> decide
  · intro p hp
    rw [three_parts] at hp
    simp only [List.mem_cons, List.not_mem_nil, or_false] at hp
    rcases hp with rfl | rfl | rfl | rfl | rfl <;> exact ⟨by simp [coupling], by simp [coupling], by simp [coupling, three]⟩

theorem two_bounds : ValidBounds two.lb two.ub := by
  refine ⟨by decide, by decide, fun j hj => ?_⟩
  have : j < 2 := hj
  interval_cases j <;> decide

theorem noise_local (lb ub : Idx) (hl : ub.length = lb.length) (label : String) (t : ℝ) (j : ℕ) : Local lb ub ((noise lb ub label).actWithJ t j) := matAction_local lb ub hl low

theorem noise_super_local (lb ub : Idx) (hl : ub.length = lb.length) (label : String) (t : ℝ) (j : ℕ) :
    (∀ u, Local (lb ++ lb) (ub ++ ub) fun x => (noise lb ub label).actWithSuperoperator t j x u) ∧ ∀ x, Local (lb ++ lb) (ub ++ ub) ((noise lb ub label).actWithSuperoperator t j x) := by
  refine ⟨fun u a a' h s hs => ?_, fun x a a' h s hs => ?_⟩
  · refine congrArg (u s + ·) (Finset.sum_congr rfl fun v hv => Finset.sum_congr rfl fun v' hv' => ?_)
    have hv := (mem_boxFinset lb ub v hl).1 hv
    rw [h _ ((inBox_append lb ub v v' hl hv.1).2 ⟨hv, (mem_boxFinset lb ub v' hl).1 hv'⟩)]
  · exact congrArg (· + _) (h s hs)

theorem three_count : three.parts.map (nAvr .li) = [1, 1, 1, 1, 1] := rfl

/-! ## C28: jump number 3 is that of the interaction on the axes 2 and 0 -/

example (t : ℝ) (psi : Arr ℂ) (i : Idx) (hi : InBox [0, 0, 0] [1, 2, 1] i) :
    three.actWithJ t psi 3 i = matAction [0, 0] [1, 1] low (fun s => psi (replace [2, 0] s i)) (coords [2, 0] i) :=
  comp_actWithJ three three_ok t psi 3 0 (coupling [0, 0, 0] [1, 2, 1] [2, 0]) (noise [0, 0] [1, 1] "joint decay") rfl rfl Nat.one_pos (by rw [three_count]; norm_num)
    (noise_local [0, 0] [1, 1] rfl "joint decay" t 0) i hi

example (t : ℝ) (psi : Arr ℂ) (i : Idx) (hi : InBox [0, 0, 0] [1, 2, 1] i) : three.actWithJ t psi 3 i = matAction [0, 0, 0] [1, 2, 1] (extend 3 [2, 0] low) psi i :=
  comp_jump_operator three three_ok t psi 3 0 (coupling [0, 0, 0] [1, 2, 1] [2, 0]) (noise [0, 0] [1, 1] "joint decay") rfl rfl Nat.one_pos (by rw [three_count]; norm_num)
    low (fun _ _ => rfl) i hi

example (t : ℝ) (psi : Arr ℂ) : three.actWithJ t psi 5 = psi := comp_actWithJ_out three t psi 5 (by norm_num) (by rw [three_count]; norm_num)

example (t : ℝ) (rho d : Arr ℂ) (i : Idx) (hi : InBox [0, 0, 0, 0, 0, 0] [1, 2, 1, 1, 2, 1] i) :
    three.actWithSuperoperator t rho d 3 i =
      (noise [0, 0] [1, 1] "joint decay").actWithSuperoperator t 0 (fun s => rho (replace [2, 0, 5, 3] s i)) (fun s => d (replace [2, 0, 5, 3] s i)) (coords [2, 0, 5, 3] i) :=
  comp_actWithSuperoperator three three_ok t rho d 3 0 (coupling [0, 0, 0] [1, 2, 1] [2, 0]) (noise [0, 0] [1, 1] "joint decay") rfl rfl Nat.one_pos (by rw [three_count]; norm_num)
    (noise_super_local [0, 0] [1, 1] rfl "joint decay" t 0).1 (noise_super_local [0, 0] [1, 1] rfl "joint decay" t 0).2 i hi

example (t : ℝ) (rho d : Arr ℂ) : three.actWithSuperoperator t rho d 5 = d := comp_actWithSuperoperator_out three t rho d 5 (by norm_num) (by rw [three_count]; norm_num)

theorem noise_superOK (lb ub : Idx) (V : List ℕ) (label : String) (t : ℝ) : SuperOK lb ub t V (noise (sliceBound V lb) (sliceBound V ub) label) 0 low := by
  intro rho d s s' hs hs'
  have hsl : (sliceBound V ub).length = (sliceBound V lb).length := by simp [sliceBound]
  have h := ((mem_boxFinset _ _ s hsl).1 hs).1
  show d (s ++ s') + _ = _
  rw [List.take_left' h, List.drop_left' h]

example (t : ℝ) (rho d : Arr ℂ) (i i' : Idx) (hi : InBox [0, 0, 0] [1, 2, 1] i) (hi' : InBox [0, 0, 0] [1, 2, 1] i') : three.actWithSuperoperator t rho d 3 (i ++ i') =
    d (i ++ i') + ∑ u ∈ boxFinset [0, 0, 0] [1, 2, 1], ∑ u' ∈ boxFinset [0, 0, 0] [1, 2, 1], extend 3 [2, 0] low i u * rho (u ++ u') * conj (extend 3 [2, 0] low i' u') :=
  comp_superoperator_operator three three_ok t rho d 3 0 (coupling [0, 0, 0] [1, 2, 1] [2, 0]) (noise [0, 0] [1, 1] "joint decay") rfl rfl Nat.one_pos (by rw [three_count]; norm_num) low
    (noise_superOK [0, 0, 0] [1, 2, 1] [2, 0] "joint decay" t) i i' hi hi'

/-! ## C28 to C30: rates, averages and keys -/

theorem three_length (tag : Tag) : ∀ p ∈ three.parts, LengthOK tag p := by
  intro p hp
  rw [three_parts] at hp
  simp only [List.mem_cons, List.not_mem_nil, or_false] at hp
  rcases hp with rfl | rfl | rfl | rfl | rfl <;> cases tag <;> exact fun _ _ => rfl

/-- The rate of the jump number 3. -/
example (t : ℝ) (ldo : Ldo) : (three.averageLA .li t ldo)[3]? = some (expect [0, 0, 0] [1, 2, 1]
    (extend 3 [2, 0] fun i j => ∑ k ∈ boxFinset [0, 0] [1, 1], conj (low k i) * low k j) ldo.mat).re :=
  comp_average_expectation three three_ok .li t ldo (three_length .li) 3 (coupling [0, 0, 0] [1, 2, 1] [2, 0]) 0 rfl Nat.one_pos _ fun _ => rfl

/-- The columns of the free subsystem 1 are the columns 2 and 3. -/
example (t : ℝ) (ldo : Ldo) : (three.averageLA .av t ldo)[3]? = some (expect [0, 0, 0] [1, 2, 1] (extend 3 [1] fun i j => if i = j then (i.getD 0 0 : ℂ) ^ 2 else 0) ldo.mat).re :=
  comp_average_expectation three three_ok .av t ldo (three_length .av) 1 { free [0, 0, 0] [1, 2, 1] 1 with axes := [1] } 1 rfl Nat.one_lt_two _ fun _ => rfl

example (t : ℝ) (ldo : Ldo) : (three.averageLA .av t ldo).length = 6 := (comp_average three three_ok .av t ldo (three_length .av)).2.2

theorem three_keys (tag : Tag) : ∀ p ∈ three.parts, PartKeyOK tag p (match tag, p.av with | .li, some _ => ["decay"] | .li, none => ["joint decay"] | .av, some _ => ["<x>", "VAR(x)"] | .av, none => []) := by
  intro p hp
  rw [three_parts] at hp
  simp only [List.mem_cons, List.not_mem_nil, or_false] at hp
  rcases hp with rfl | rfl | rfl | rfl | rfl <;> cases tag <;> first | exact keyPrinter_ok _ _ | rfl

example : KeyOK 5 (three.streamKeyLA .li) ["decay", "decay", "decay", "joint decay", "joint decay"] := comp_key three .li _ (three_keys .li)

example : KeyOK 6 (three.streamKeyLA .av) ["<x>", "VAR(x)", "<x>", "VAR(x)", "<x>", "VAR(x)"] := comp_key three .av _ (three_keys .av)

/-- The averages of all the components are processed separately. -/
example (a b c : ℝ) : three.process [a, b, 0, 1, 1, c] = [a, b - a ^ 2, 0, 1 - 0 ^ 2, 1, c - 1 ^ 2] ∧ (three.stream [a, b, 0, 1, 1, c]).length = 6 := by
  have h := comp_process_stream three [({ free [0, 0, 0] [1, 2, 1] 0 with axes := [0] }, [a, b]), ({ free [0, 0, 0] [1, 2, 1] 1 with axes := [1] }, [0, 1]), ({ free [0, 0, 0] [1, 2, 1] 2 with axes := [2] }, [1, c]),
    (coupling [0, 0, 0] [1, 2, 1] [2, 0], []), (coupling [0, 0, 0] [1, 2, 1] [1, 2], [])] rfl (by
      intro x hx
      simp only [List.mem_cons, List.not_mem_nil, or_false] at hx
      rcases hx with rfl | rfl | rfl | rfl | rfl <;> rfl) (by
      intro x hx
      simp only [List.mem_cons, List.not_mem_nil, or_false] at hx
      rcases hx with rfl | rfl | rfl | rfl | rfl <;> rfl)
  exact ⟨h.1, congrArg List.length h.2⟩

/-! ## C27, C29, C30, C66: binary systems -/

example (t : ℝ) (psi : Arr ℂ) (i : Idx) (hi : InBox [0, 0] [1, 2] i) :
    two.actWithJ t psi 0 i = matAction [0] [1] low (fun s => psi (replace [0] s i)) (coords [0] i) ∧
    two.actWithJ t psi 1 i = matAction [0] [2] low (fun s => psi (replace [1] s i)) (coords [1] i) ∧
    two.actWithJ t psi 2 i = matAction [0, 0] [1, 2] low psi i := by
  obtain ⟨h0, h1, h01⟩ := bin_actWithJ two two_bounds rfl t psi (by show 3 < 2 ^ 64; norm_num) i hi
  have a1 := h1 (noise [0] [2] "decay") 0 rfl Nat.one_pos (noise_local [0] [2] rfl "decay" t 0)
  have a2 := h01 (Or.inl rfl) (noise [0, 0] [1, 2] "joint decay") 0 rfl Nat.one_pos
  have e0 : nAvr .li two.free0 = 1 := rfl
  have e1 : nAvr .li two.free1 = 1 := rfl
  simp only [e0, e1] at a1 a2
  exact ⟨h0 _ 0 rfl Nat.one_pos (noise_local [0] [1] rfl "decay" t 0), a1, congrFun a2 i⟩

example (t : ℝ) (rho d : Arr ℂ) (i : Idx) (hi : InBox [0, 0, 0, 0] [1, 2, 1, 2] i) : two.actWithSuperoperator t rho d 1 i =
    (noise [0] [2] "decay").actWithSuperoperator t 0 (fun s => rho (replace [1, 3] s i)) (fun s => d (replace [1, 3] s i)) (coords [1, 3] i) := by
  obtain ⟨-, h1, -⟩ := bin_actWithSuperoperator two two_bounds rfl t rho d (by show 3 < 2 ^ 64; norm_num) i hi
  have a1 := h1 (noise [0] [2] "decay") 0 rfl Nat.one_pos (noise_super_local [0] [2] rfl "decay" t 0).1 (noise_super_local [0] [2] rfl "decay" t 0).2
  have e0 : nAvr .li two.free0 = 1 := rfl
  simp only [e0] at a1
  exact a1

/-- All three jumps of the binary system are dispatched, and a fourth one does not exist. -/
example (x : ℕ) : [0, 1, 2, 3].map (fun i => binaryDispatch two.free0 two.free1 two.ia (fun _ _ _ => 10) (fun _ _ _ => 20) (fun _ _ _ => 30) i x) = [10, 20, 30, x] := by
  obtain ⟨h0, h1, h2, h3⟩ := binary_dispatch two.free0 two.free1 two.ia (fun _ _ _ => 10) (fun _ _ _ => 20) (fun _ _ _ => 30) x (by show 3 < 2 ^ 64; norm_num)
  have e0 : nAvr .li two.free0 = 1 := rfl
  have e1 : nAvr .li two.free1 = 1 := rfl
  have e2 : nAvr .li two.ia = 1 := rfl
  simp only [e0, e1, e2] at h1 h2 h3
  rw [List.map_cons, List.map_cons, List.map_cons, List.map_cons, List.map_nil, h0 _ 0 rfl Nat.one_pos, h1 _ 0 rfl Nat.one_pos, h2 (Or.inl rfl) _ 0 rfl Nat.one_pos, h3 (Or.inl rfl) 3 (by norm_num) (by norm_num)]

example (t : ℝ) (ldo : Ldo) : (two.average .av t ldo).length = 4 := (bin_average two two_bounds rfl .av t ldo (fun _ _ => rfl) (fun _ _ => rfl) fun _ _ => rfl).2.1

example : KeyOK 3 (two.streamKey .li) ["decay", "decay", "joint decay"] := bin_key two .li ["decay"] ["decay"] ["joint decay"] (keyPrinter_ok _ _) (keyPrinter_ok _ _) (keyPrinter_ok _ _)

example (a b c d : ℝ) : two.process [a, b, c, d] = [a, b - a ^ 2, c, d - c ^ 2] := (bin_process_stream two [a, b] [c, d] [] rfl rfl rfl rfl rfl).1

/-- C66: with the second free system noiseless, the jump of the interaction is not performed. -/
example (x : ℕ) : binaryDispatch two.free0 { two.free1 with li := none } two.ia (fun _ _ _ => 10) (fun _ _ _ => 20) (fun _ _ _ => 30) 1 x = x :=
  binary_interaction_jump two.free0 { two.free1 with li := none } two.ia (fun _ _ _ => 10) (fun _ _ _ => 20) (fun _ _ _ => 30) x (by show 2 < 2 ^ 63; norm_num) rfl _ rfl 0 Nat.one_pos

example : ¬ ∀ {β : Type} (act0 act1 act01 : Li → ℕ → β → β) (x : β) li j, two.ia.li = some li → j < li.nAvr →
    binaryDispatch two.free0 { two.free1 with li := none } two.ia act0 act1 act01 (1 + 0 + j) x = act01 li j x := by
  intro h
  have := (binary_interaction_jump_iff_partial two.free0 { two.free1 with li := none } two.ia (by show 2 < 2 ^ 63; norm_num)).1 h
  rcases this with h | h | h
  · exact absurd h (by simp)
  · exact absurd h (by show ¬ (1 = 0); norm_num)
  · exact absurd h (by show ¬ (1 = 0); norm_num)

/-! ## C31, C68, C76: dynamics -/

theorem three_ha (t t0 : ℝ) : ∀ p ∈ three.parts, HaOK three.lb three.ub t t0 p (inPicture freq p.axes hop (t - t0)) := by
  intro p hp
  rw [three_parts] at hp
  simp only [List.mem_cons, List.not_mem_nil, or_false] at hp
  rcases hp with rfl | rfl | rfl | rfl | rfl <;> exact fun _ _ _ _ => rfl

theorem three_ex (t t0 : ℝ) (k : ℕ) (p : Part) (hk : three.frees[k]? = some p) : ExOK three.lb three.ub t t0 { p with axes := [k] } (fun s => Complex.exp (-(freq k (s.getD 0 0) * (t - t0 : ℝ)))) := by
  have hlt : k < 3 := (List.getElem?_eq_some_iff.1 hk).1
  interval_cases k <;> (obtain rfl := Option.some.inj hk; exact fun _ _ _ => rfl)

example (t t0 : ℝ) (psi d : Arr ℂ) (i : Idx) (hi : InBox [0, 0, 0] [1, 2, 1] i) :
    three.addContribution t t0 psi d i = d i + matAction [0, 0, 0] [1, 2, 1] (fun i j => (three.parts.map fun p => extend 3 p.axes (inPicture freq p.axes hop (t - t0)) i j).sum) psi i :=
  comp_addContribution three three_ok t t0 (fun p => inPicture freq p.axes hop (t - t0)) (three_ha t t0) psi d i hi

example (t t0 : ℝ) (psi : Arr ℂ) (i : Idx) (hi : InBox [0, 0, 0] [1, 2, 1] i) : ∃ D, three.actWithU t t0 psi i = psi i * D ∧ D = (three.parts.map fun p => if p.ex.isSome then Complex.exp (-(freq (p.axes.getD 0 0) ((coords p.axes i).getD 0 0) * (t - t0 : ℝ))) else 1).prod := by
  refine ⟨_, comp_actWithU three three_ok t t0 (fun p s => if p.ex.isSome then Complex.exp (-(freq (p.axes.getD 0 0) (s.getD 0 0) * (t - t0 : ℝ))) else 1) ?_ psi i hi, rfl⟩
  intro p hp
  rw [three_parts] at hp
  simp only [List.mem_cons, List.not_mem_nil, or_false] at hp
  rcases hp with rfl | rfl | rfl | rfl | rfl <;> first | exact fun _ _ _ => rfl | exact fun _ _ => rfl

/-- It does not matter in what order the interactions are given. -/
example (t t0 : ℝ) (psi d : Arr ℂ) (i : Idx) (hi : InBox [0, 0, 0] [1, 2, 1] i) : ({ three with acts := three.acts.reverse } : Comp).addContribution t t0 psi d i = three.addContribution t t0 psi d i := by
  have hperm : three.parts.Perm ({ three with acts := three.acts.reverse } : Comp).parts := (three.acts.reverse_perm.symm).append_left _
  refine comp_addContribution_perm three { three with acts := three.acts.reverse } three_ok ⟨three_ok.bounds, three_ok.len, fun p hp => three_ok.axes p (hperm.mem_iff.2 hp)⟩ rfl rfl rfl hperm t t0
    (fun p => inPicture freq p.axes hop (t - t0)) (three_ha t t0) psi d i hi

/-- C68: the interactions are fine as they have no exact part. -/
example : three.applicableInMaster = true := by
  refine (comp_applicableInMaster three).2 fun p hp => ?_
  rw [three_parts] at hp
  simp only [List.mem_cons, List.not_mem_nil, or_false] at hp
  rcases hp with rfl | rfl | rfl | rfl | rfl <;> rfl

/-- C76, with a curve through any state `φ` at the time `t` along which the equation of motion holds at `t`. -/
example (t0 t : ℝ) (φ : Arr ℂ) (i : Idx) (hi : InBox [0, 0, 0] [1, 2, 1] i) :
    HasDerivAt (fun s => three.actWithU s t0 (fun i => φ i + (s - t : ℝ) * three.addContribution t t0 φ (fun _ => 0) i) i)
      (matAction [0, 0, 0] [1, 2, 1] (three.hamiltonian freq fun _ => hop) (three.actWithU t t0 φ) i) t := by
  have h := (comp_schroedinger three three_ok rfl freq (fun _ => hop) three_ex (by
    intro p hp
    simp only [three, List.mem_cons, List.not_mem_nil, or_false] at hp
    rcases hp with rfl | rfl <;> rfl) three_ha t0 t (fun s i => φ i + (s - t : ℝ) * three.addContribution t t0 φ (fun _ => 0) i) (by
    intro i _
    simp only [sub_self, Complex.ofReal_zero, zero_mul, add_zero]
    exact ((((hasDerivAt_id t).sub_const t).ofReal_comp.mul_const _).const_add (φ i)).congr_deriv (by simp)) i hi).2
  simp only [sub_self, Complex.ofReal_zero, zero_mul, add_zero] at h
  exact h

theorem two_ha (t t0 : ℝ) (k : ℕ) : HaOK two.lb two.ub t t0 { free two.lb two.ub k with axes := [k] } (inPicture freq [k] hop (t - t0)) := fun _ _ _ _ => rfl

theorem two_ex (t t0 : ℝ) (k : ℕ) : ExOK two.lb two.ub t t0 { free two.lb two.ub k with axes := [k] } (fun s => Complex.exp (-(freq k (s.getD 0 0) * (t - t0 : ℝ)))) := fun _ _ _ => rfl

example (t t0 : ℝ) (psi d : Arr ℂ) (i : Idx) (hi : InBox [0, 0] [1, 2] i) : two.addContribution t t0 psi d i =
    d i + matAction [0, 0] [1, 2] (fun i j => extend 2 [0] (inPicture freq [0] hop (t - t0)) i j + extend 2 [1] (inPicture freq [1] hop (t - t0)) i j + inPicture freq [0, 1] hop (t - t0) i j) psi i :=
  bin_addContribution two two_bounds rfl t t0 _ _ _ (two_ha t t0 0) (two_ha t t0 1) (fun _ _ _ _ => rfl) psi d i hi

example (t t0 : ℝ) (psi : Arr ℂ) (i : Idx) (hi : InBox [0, 0] [1, 2] i) :
    two.actWithU t t0 psi i = psi i * (Complex.exp (-(freq 0 (i.getD 0 0) * (t - t0 : ℝ))) * Complex.exp (-(freq 1 (i.getD 1 0) * (t - t0 : ℝ))) * 1) :=
  bin_actWithU two two_bounds rfl t t0 _ _ (fun _ => 1) (two_ex t t0 0) (two_ex t t0 1) (fun _ _ => rfl) psi i hi

example : two.applicableInMaster = true := (bin_applicableInMaster two).2 ⟨rfl, rfl, rfl⟩

example (t0 t : ℝ) (φ : Arr ℂ) (i : Idx) (hi : InBox [0, 0] [1, 2] i) : ∃ H, HasDerivAt (fun s => two.actWithU s t0 (fun i => φ i + (s - t : ℝ) * two.addContribution t t0 φ (fun _ => 0) i) i)
      (matAction [0, 0] [1, 2] H (two.actWithU t t0 φ) i) t := by
  have h := (bin_schroedinger two two_bounds rfl freq hop hop hop (fun t t0 => two_ex t t0 0) (fun t t0 => two_ex t t0 1) rfl (fun t t0 => two_ha t t0 0) (fun t t0 => two_ha t t0 1) (fun _ _ _ _ _ _ => rfl) t0 t
    (fun s i => φ i + (s - t : ℝ) * two.addContribution t t0 φ (fun _ => 0) i) (by
    intro i _
    simp only [sub_self, Complex.ofReal_zero, zero_mul, add_zero]
    exact ((((hasDerivAt_id t).sub_const t).ofReal_comp.mul_const _).const_add (φ i)).congr_deriv (by simp)) i hi).2
  simp only [sub_self, Complex.ofReal_zero, zero_mul, add_zero] at h
  exact ⟨_, h⟩

/-! ## C84: a binary system is a composite -/

theorem expect_congr (lb ub : Idx) (hl : ub.length = lb.length) (A : Idx → Idx → ℂ) {m m' : Idx → Idx → ℂ} (h : ∀ s s', InBox lb ub s → InBox lb ub s' → m s s' = m' s s') : expect lb ub A m = expect lb ub A m' :=
  Finset.sum_congr rfl fun i hi => Finset.sum_congr rfl fun j hj => by rw [h i j ((mem_boxFinset lb ub i hl).1 hi) ((mem_boxFinset lb ub j hl).1 hj)]

theorem two_inBounds : InBounds two.lb two.ub two.ia := by
  refine ⟨fun f hf t t0 => ?_, fun f hf => absurd hf (by simp [two, coupling]), fun li hli t j => ?_, fun li hli t j => ?_, fun tag t m m' h => ?_⟩
  · obtain rfl := Option.some.inj hf
    exact ⟨fun d a a' h s hs => congrArg (d s + ·) (matAction_local [0, 0] [1, 2] rfl _ a a' h s hs), fun psi a a' h s hs => congrArg (· + _) (h s hs)⟩
  · obtain rfl := Option.some.inj hli
    exact noise_local [0, 0] [1, 2] rfl "joint decay" t j
  · obtain rfl := Option.some.inj hli
    exact noise_super_local [0, 0] [1, 2] rfl "joint decay" t j
  · cases tag with
    | li => exact congrArg (fun z : ℂ => [z.re]) (expect_congr [0, 0] [1, 2] rfl _ h)
    | av => rfl

example (t t0 : ℝ) (psi d : Arr ℂ) (i : Idx) (hi : InBox [0, 0] [1, 2] i) (m : ℕ) (hm : m < 2 ^ 64) :
    two.addContribution t t0 psi d i = two.toComp.addContribution t t0 psi d i ∧ two.actWithU t t0 psi i = two.toComp.actWithU t t0 psi i ∧ two.actWithJ t psi m i = two.toComp.actWithJ t psi m i :=
  ⟨bin_comp_addContribution two two_bounds rfl two_inBounds t t0 psi d i hi, bin_comp_actWithU two two_bounds rfl two_inBounds t t0 psi i hi,
    bin_comp_actWithJ two two_bounds rfl two_inBounds (Or.inl rfl) (by show 3 < 2 ^ 64; norm_num) t psi m hm i hi⟩

example (t : ℝ) (rho d : Arr ℂ) (i : Idx) (hi : InBox [0, 0, 0, 0] [1, 2, 1, 2] i) : two.actWithSuperoperator t rho d 2 i = two.toComp.actWithSuperoperator t rho d 2 i :=
  bin_comp_actWithSuperoperator two two_bounds rfl two_inBounds (Or.inl rfl) (by show 3 < 2 ^ 64; norm_num) t rho d 2 (by norm_num) i hi

example (tag : Tag) (t : ℝ) (ldo : Ldo) : two.average tag t ldo = two.toComp.averageLA tag t ldo :=
  bin_comp_average two two_bounds rfl two_inBounds tag t ldo (by cases tag <;> exact fun _ _ => rfl) (by cases tag <;> exact fun _ _ => rfl) (by cases tag <;> exact fun _ _ => rfl)

example (implemented : ℕ → Bool) {n : ℕ} (e : Enum two.lb two.ub n) (t t0 : ℝ) (rho) :
    Master.derivative (two.toSys implemented e) t t0 rho = Master.derivative (two.toComp.toSys implemented e) t t0 rho :=
  (bin_toSys two two_bounds rfl two_inBounds (Or.inl rfl) (by show 3 < 2 ^ 64; norm_num) implemented e).2.2.1 t t0 rho

example (implemented : ℕ → Bool) {n : ℕ} {κ : Type} (e : Enum two.lb two.ub n) (solver : (ℝ → Master.Rho n → Master.Rho n) → ODE.Stepper (Master.Rho n) κ) (fuel : ℕ) (deltaT : ℝ) (x : Master.St n κ) (rho : Master.Rho n)
    (ode : ODE.Engine κ) : Master.step solver (two.toSys implemented e) fuel deltaT x = Master.step solver (two.toComp.toSys implemented e) fuel deltaT x :=
  (bin_master_step two two_bounds rfl two_inBounds (Or.inl rfl) (by show 3 < 2 ^ 64; norm_num) implemented e solver fuel deltaT x true rho ode).2

end CppQED.Composite.Cases
