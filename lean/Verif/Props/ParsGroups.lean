import Verif.Spec.ParsGroups
import Verif.Props.Pars
import Mathlib.Data.List.Infix

/-!
# Groups of parameters told apart by suffixes

**C173.** Several groups of parameters can be put on one table with different suffixes. **C174.** Without restriction on the suffixes and the groups this is false.
-/

namespace CppQED.Pars
open Spec
variable {V : Type}

theorem noPrefix_ne (s : Str) : noPrefix ++ s ≠ s := fun e => by
  have := congrArg List.length e
  simp only [noPrefix, List.length_append, List.length_cons, List.length_nil] at this; omega

/-- The registrations of a sequence of groups, one by one. -/
def flat (jobs : List (List Item × Str)) : List (Item × Str) := jobs.flatMap fun j => j.1.map fun i => (i, j.2)

theorem register_eq (ty : String → (Str → Option (V × ℕ)) × V) (mod : Str) (g : List Item) (t : Table V) :
    register ty mod g t = (g.map fun i => (i, mod)).foldlM (fun t i => i.1.register ty i.2 t) t := by
  unfold register
  induction g generalizing t with
  | nil => rfl
  | cons i g ih =>
    rw [List.map_cons, List.foldlM_cons, List.foldlM_cons]
    exact congrArg _ (funext fun t => ih t)

theorem registerAll_eq (ty : String → (Str → Option (V × ℕ)) × V) (jobs : List (List Item × Str)) (t : Table V) :
    registerAll ty jobs t = (flat jobs).foldlM (fun t i => i.1.register ty i.2 t) t := by
  unfold registerAll
  induction jobs generalizing t with
  | nil => rfl
  | cons j jobs ih =>
    rw [flat, List.flatMap_cons, List.foldlM_cons, List.foldlM_append, register_eq]
    exact congrArg _ (funext fun t => ih t)

theorem jobNames_flat (jobs : List (List Item × Str)) : jobNames jobs = (flat jobs).flatMap fun i => itemNames i.2 i.1 := by
  unfold jobNames flat groupNames
  rw [List.flatMap_assoc]
  congr 1
  funext j
  rw [List.flatMap_map]

/-- One registration. -/
theorem item_register (ty : String → (Str → Option (V × ℕ)) × V) (mod : Str) (i : Item) (t : Table V) (ht : (t.map Prod.fst).Nodup) :
    ((i.register ty mod t).isSome ↔ (t.map Prod.fst ++ itemNames mod i).Nodup) ∧
    ∀ t', i.register ty mod t = some t' → t'.map Prod.fst = t.map Prod.fst ++ itemNames mod i ∧ (Built t → Built t') ∧ (∀ x, x ∉ itemNames mod i → valueOf t' x = valueOf t x) ∧
      ∀ x w, ItemGives ty mod i x w → valueOf t' x = some w := by
  have one : ∀ (s : Str) (k : Kind V), ((addKind t s k).isSome ↔ (t.map Prod.fst ++ [s]).Nodup) ∧ ∀ t', addKind t s k = some t' → t'.map Prod.fst = t.map Prod.fst ++ [s] ∧ ∀ x, x ∉ [s] → valueOf t' x = valueOf t x := by
    intro s k
    constructor
    · rw [← not_iff_not, Option.not_isSome_iff_eq_none, addKind_none, List.nodup_append]
      simp [ht]
    · intro t' h
      obtain ⟨-, rfl⟩ := addKind_eq.1 h
      refine ⟨by simp, fun x hx => ?_⟩
      unfold valueOf
      rw [List.find?_append]
      simp [Ne.symm (show x ≠ s from fun e => hx (by simp [e]))]
  cases i with
  | title s =>
    obtain ⟨h1, h2⟩ := one (s.toList ++ mod) .title
    refine ⟨h1, fun t' h => ⟨(h2 t' h).1, fun b => b.addTitle _ _ h, (h2 t' h).2, fun x w hx => hx.elim⟩⟩
  | param s =>
    obtain ⟨h1, h2⟩ := one (s.toList ++ mod) (.typed (ty s).1 (ty s).2)
    refine ⟨h1, fun t' h => ⟨(h2 t' h).1, fun b => b.add _ _ _ h, (h2 t' h).2, ?_⟩⟩
    rintro x w ⟨rfl, rfl⟩
    exact (add_default t t' _ _ _ h).1
  | plain s =>
    obtain ⟨h1, h2⟩ := one s.toList (.typed (ty s).1 (ty s).2)
    refine ⟨h1, fun t' h => ⟨(h2 t' h).1, fun b => b.add _ _ _ h, (h2 t' h).2, ?_⟩⟩
    rintro x w ⟨rfl, rfl⟩
    exact (add_default t t' _ _ _ h).1
  | switch s v =>
    have hnames : itemNames mod (.switch s v) = [s.toList ++ mod, noPrefix ++ (s.toList ++ mod)] := by
      show [_, "no_".toList ++ s.toList ++ mod] = _
      rw [List.append_assoc]; rfl
    have hthrow := addBool_throws t (s.toList ++ mod) v
    constructor
    · rw [hnames]
      show (if (addBool t (s.toList ++ mod) v).2 then none else some (addBool t (s.toList ++ mod) v).1).isSome ↔ _
      have hne := noPrefix_ne (s.toList ++ mod)
      rw [List.nodup_append]
      by_cases h : (addBool t (s.toList ++ mod) v).2 = true
      · rw [if_pos h]
        have := hthrow.1 h
        simp only [Option.isSome_none, Bool.false_eq_true, false_iff, not_and]
        intro _ _ hd
        rcases this with h | h
        · exact hd _ h _ (by simp) rfl
        · exact hd _ h _ (by simp) rfl
      · rw [if_neg h]
        have := mt hthrow.2 h
        simp only [not_or] at this
        simp only [Option.isSome_some, true_iff]
        refine ⟨ht, by simp [Ne.symm hne], ?_⟩
        intro a ha b hb e
        subst e
        simp only [List.mem_cons, List.not_mem_nil, or_false] at hb
        rcases hb with rfl | rfl
        · exact this.1 ha
        · exact this.2 ha
    · intro t' h
      have h' : addBool t (s.toList ++ mod) v = (t', false) := by
        have h : (if (addBool t (s.toList ++ mod) v).2 then none else some (addBool t (s.toList ++ mod) v).1) = some t' := h
        by_cases hb : (addBool t (s.toList ++ mod) v).2 = true
        · rw [if_pos hb] at h; simp at h
        · rw [if_neg hb] at h
          have := Option.some.inj h
          exact Prod.ext this (by simpa using hb)
      refine ⟨?_, fun b => b.addBool _ _ h', ?_, ?_⟩
      · rw [hnames]
        unfold addBool at h'
        split at h'
        · simp at h'
        · rename_i t1 e
          obtain ⟨h1, rfl⟩ := addKind_eq.1 e
          split at h'
          · simp at h'
          · rename_i t2 e'
            obtain ⟨h2, rfl⟩ := addKind_eq.1 e'
            simp only [Prod.mk.injEq, and_true] at h'
            rw [← h']; simp
      · intro x hx
        rw [hnames] at hx
        exact (addBool_default t t' _ v h').2 x fun e => hx (by simp [e])
      · rintro x w ⟨rfl, rfl⟩
        exact (addBool_default t t' _ v h').1

theorem flat_register (ty : String → (Str → Option (V × ℕ)) × V) (is : List (Item × Str)) (t : Table V) (ht : (t.map Prod.fst).Nodup) :
    ((is.foldlM (fun t (i : Item × Str) => i.1.register ty i.2 t) t).isSome ↔ (t.map Prod.fst ++ is.flatMap fun i => itemNames i.2 i.1).Nodup) ∧
    ∀ t', is.foldlM (fun t (i : Item × Str) => i.1.register ty i.2 t) t = some t' → t'.map Prod.fst = t.map Prod.fst ++ is.flatMap (fun i => itemNames i.2 i.1) ∧ (Built t → Built t') ∧
      (∀ x, x ∉ is.flatMap (fun i => itemNames i.2 i.1) → valueOf t' x = valueOf t x) ∧ ∀ i ∈ is, ∀ x w, ItemGives ty i.2 i.1 x w → valueOf t' x = some w := by
  induction is generalizing t with
  | nil =>
    refine ⟨by simp [ht], fun t' h => ?_⟩
    obtain rfl := Option.some.inj h
    simp
  | cons i is ih =>
    obtain ⟨h1, h2⟩ := item_register ty i.2 i.1 t ht
    rw [List.foldlM_cons, List.flatMap_cons]
    cases hr : i.1.register ty i.2 t with
    | none =>
      rw [hr] at h1
      refine ⟨?_, fun t' h => by simp at h⟩
      simp only [Option.isSome_none, Bool.false_eq_true, false_iff] at h1
      simp only [Option.bind_eq_bind, Option.bind_none, Option.isSome_none, Bool.false_eq_true, false_iff]
      intro h
      rw [← List.append_assoc] at h
      exact h1 (List.nodup_append.1 h).1
    | some t1 =>
      obtain ⟨n1, b1, f1, g1⟩ := h2 t1 hr
      have ht1 : (t1.map Prod.fst).Nodup := by rw [n1]; exact h1.1 (by rw [hr]; rfl)
      obtain ⟨i1, i2⟩ := ih t1 ht1
      simp only [Option.bind_eq_bind, Option.bind_some]
      refine ⟨?_, ?_⟩
      · rw [i1, n1, List.append_assoc]
      · intro t' h
        obtain ⟨n2, b2, f2, g2⟩ := i2 t' h
        refine ⟨by rw [n2, n1, List.append_assoc], fun b => b2 (b1 b), ?_, ?_⟩
        · intro x hx
          rw [List.mem_append, not_or] at hx
          rw [f2 x hx.2, f1 x hx.1]
        · intro k hk x w hg
          rcases List.mem_cons.1 hk with rfl | hk
          · have hx : x ∈ itemNames k.2 k.1 := by
              obtain ⟨k, m⟩ := k
              cases k with
              | title s => exact hg.elim
              | param s => obtain ⟨rfl, -⟩ := hg; simp [itemNames]
              | plain s => obtain ⟨rfl, -⟩ := hg; simp [itemNames]
              | switch s v => obtain ⟨rfl, -⟩ := hg; simp [itemNames]
            have hnd := (i1.1 (by rw [h]; rfl))
            rw [List.nodup_append] at hnd
            rw [f2 x (fun hx' => hnd.2.2 x (by rw [n1]; exact List.mem_append_right _ hx) x hx' rfl)]
            exact g1 x w hg
          · exact g2 k hk x w hg

/-- **C173.** Groups with their suffixes can be put on a table exactly if none of the names they occupy is taken by the table or by another of their items. Then the table is extended by these names, all the parameters have
their default values, and the other parameters are not touched. -/
theorem registerAll_iff (ty : String → (Str → Option (V × ℕ)) × V) (jobs : List (List Item × Str)) (t : Table V) (ht : Built t) :
    ((∃ t', registerAll ty jobs t = some t') ↔ (t.map Prod.fst ++ jobNames jobs).Nodup) ∧
    ∀ t', registerAll ty jobs t = some t' → Built t' ∧ t'.map Prod.fst = t.map Prod.fst ++ jobNames jobs ∧ (∀ x, x ∉ jobNames jobs → valueOf t' x = valueOf t x) ∧
      ∀ j ∈ jobs, ∀ i ∈ j.1, ∀ x w, ItemGives ty j.2 i x w → valueOf t' x = some w := by
  obtain ⟨h1, h2⟩ := flat_register ty (flat jobs) t (inv_of_built ht).nodup
  rw [registerAll_eq, jobNames_flat, ← Option.isSome_iff_exists]
  refine ⟨h1, fun t' h => ?_⟩
  obtain ⟨a, b, c, d⟩ := h2 t' h
  exact ⟨b ht, a, c, fun j hj i hi => d (i, j.2) (List.mem_flatMap.2 ⟨j, hj, List.mem_map.2 ⟨i, hi, rfl⟩⟩)⟩

/-! ## Suffixes made of digits -/

/-- The names of a group without suffix. -/
theorem itemNames_suffix (mod : Str) (i : Item) (h : ∀ s, i ≠ .plain s) : itemNames mod i = (itemNames [] i).map (· ++ mod) := by
  cases i with
  | title s => simp [itemNames]
  | param s => simp [itemNames]
  | plain s => exact absurd rfl (h s)
  | switch s v => simp [itemNames]

theorem groupNames_suffix (g : List Item) (mod : Str) (h : ∀ i ∈ g, ∀ s, i ≠ .plain s) : groupNames g mod = (groupNames g []).map (· ++ mod) := by
  unfold groupNames
  induction g with
  | nil => rfl
  | cons i g ih =>
    rw [List.flatMap_cons, List.flatMap_cons, List.map_append, itemNames_suffix mod i (h i (by simp)), ih fun k hk => h k (by simp [hk])]

/-- Cutting a name into the part up to the last non-digit and the digits is unique. -/
theorem digits_suffix {a b m n : Str} (ha : ∃ r c, a = r ++ [c] ∧ c.isDigit = false) (hb : ∃ r c, b = r ++ [c] ∧ c.isDigit = false) (hm : ∀ c ∈ m, c.isDigit) (hn : ∀ c ∈ n, c.isDigit)
    (h : a ++ m = b ++ n) : a = b ∧ m = n := by
  have key : ∀ {a b m n : Str}, (∃ r c, b = r ++ [c] ∧ c.isDigit = false) → (∀ c ∈ m, c.isDigit) → ∀ s, b = a ++ s → m = s ++ n → s = [] := by
    rintro a b m n ⟨r, c, rfl, hc⟩ hm s hs rfl
    rcases List.eq_nil_or_concat s with rfl | ⟨s', d, rfl⟩
    · rfl
    · have : d = c := by
        rw [List.concat_eq_append, ← List.append_assoc] at hs
        exact ((List.append_inj' hs rfl).2 ▸ rfl : [d] = [c]) |> List.singleton_inj.1
      subst this
      exact absurd (hm d (by simp)) (by simp [hc])
  rcases List.append_eq_append_iff.1 h with ⟨s, h1, h2⟩ | ⟨s, h1, h2⟩
  · obtain rfl := key hb hm s h1 h2; simp at h1 h2; exact ⟨h1.symm, h2⟩
  · obtain rfl := key ha hn s h1 h2; simp at h1 h2; exact ⟨h1, h2.symm⟩

/-- The groups of the framework pass on their suffix, use no name twice, and no name ends with a digit. -/
theorem catalogue_names : ∀ g ∈ catalogue, (∀ i ∈ g, ∀ s, i ≠ .plain s) ∧ (groupNames g []).Nodup ∧ ∀ a ∈ groupNames g [], ∃ r c, a = r ++ [c] ∧ c.isDigit = false := by
  have h1 : ∀ g ∈ catalogue, g.all (fun i => match i with | .plain _ => false | _ => true) = true := by decide +kernel
  have h2 : ∀ g ∈ catalogue, (groupNames g []).Nodup := by decide +kernel
  have h3 : ∀ g ∈ catalogue, (groupNames g []).all (fun a => match a.getLast? with | some c => !c.isDigit | none => false) = true := by decide +kernel
  intro g hg
  refine ⟨?_, h2 g hg, ?_⟩
  · rintro i hi s rfl
    have := List.all_eq_true.1 (h1 g hg) _ hi
    simp at this
  · intro a ha
    have := List.all_eq_true.1 (h3 g hg) a ha
    rcases List.eq_nil_or_concat a with rfl | ⟨r, c, rfl⟩
    · simp at this
    · refine ⟨r, c, by simp, ?_⟩
      simpa using this

/-- **C173.** Groups of the framework with suffixes made of digits, or without a suffix, can be put on one table in any number, if those with the same suffix have no name in common. -/
theorem numbered_groups (ty : String → (Str → Option (V × ℕ)) × V) (jobs : List (List Item × Str)) (hc : ∀ j ∈ jobs, j.1 ∈ catalogue ∧ ∀ c ∈ j.2, c.isDigit)
    (hp : jobs.Pairwise fun a b => a.2 = b.2 → (groupNames a.1 []).Disjoint (groupNames b.1 [])) : ∃ t', registerAll ty jobs [] = some t' := by
  rw [(registerAll_iff ty jobs [] .nil).1]
  simp only [List.map_nil, List.nil_append, jobNames]
  rw [List.nodup_flatMap]
  constructor
  · intro j hj
    obtain ⟨h1, h2, h3⟩ := catalogue_names j.1 (hc j hj).1
    rw [groupNames_suffix _ _ h1]
    exact h2.map fun a b h => List.append_cancel_right h
  · refine (List.Pairwise.and_mem.1 hp).imp ?_
    rintro a b ⟨ha, hb, h⟩
    obtain ⟨a1, a2, a3⟩ := catalogue_names a.1 (hc a ha).1
    obtain ⟨b1, b2, b3⟩ := catalogue_names b.1 (hc b hb).1
    show List.Disjoint (groupNames a.1 a.2) (groupNames b.1 b.2)
    rw [groupNames_suffix _ _ a1, groupNames_suffix _ _ b1]
    intro x hx hx'
    obtain ⟨u, hu, rfl⟩ := List.mem_map.1 hx
    obtain ⟨v, hv, e⟩ := List.mem_map.1 hx'
    obtain ⟨e1, e2⟩ := digits_suffix (b3 v hv) (a3 u hu) (hc b hb).2 (hc a ha).2 e
    subst e1
    exact h e2.symm hu hv

/-- **C173.** Any number of copies of a group of the framework, numbered differently. -/
theorem numbered_copies (ty : String → (Str → Option (V × ℕ)) × V) (g : List Item) (hg : g ∈ catalogue) (mods : List Str) (hn : mods.Nodup) (hd : ∀ m ∈ mods, ∀ c ∈ m, c.isDigit) :
    ∃ t', registerAll ty (mods.map fun m => (g, m)) [] = some t' := by
  refine numbered_groups ty _ ?_ ?_
  · intro j hj
    obtain ⟨m, hm, rfl⟩ := List.mem_map.1 hj
    exact ⟨hg, hd m hm⟩
  · rw [List.pairwise_map]
    exact hn.imp fun h e => absurd e h

/-! ## Suffixes in general -/

/-- **C174.** Two modes can be put on one table exactly if their suffixes differ, and neither of them is the other one after `Fock` or `Alter`. -/
theorem twoModes_partial (ty : String → (Str → Option (V × ℕ)) × V) (m n : Str) :
    (∃ t', registerAll ty [(modePumpedLossy, m), (modePumpedLossy, n)] [] = some t') ↔
      m ≠ n ∧ m ≠ "Fock".toList ++ n ∧ n ≠ "Fock".toList ++ m ∧ m ≠ "Alter".toList ++ n ∧ n ≠ "Alter".toList ++ m := by
  rw [(registerAll_iff ty _ [] .nil).1]
  obtain ⟨h1, h2, -⟩ := catalogue_names modePumpedLossy (by decide +kernel)
  have hpre : ∀ a ∈ groupNames modePumpedLossy [], ∀ b ∈ groupNames modePumpedLossy [], a <+: b → b = a ∨ b = a ++ "Fock".toList ∨ b = a ++ "Alter".toList := by decide +kernel
  have hex : "minit".toList ∈ groupNames modePumpedLossy [] ∧ "minitFock".toList ∈ groupNames modePumpedLossy [] ∧ "omegaKerr".toList ∈ groupNames modePumpedLossy [] ∧
      "omegaKerrAlter".toList ∈ groupNames modePumpedLossy [] := by decide +kernel
  simp only [List.map_nil, List.nil_append, jobNames, List.flatMap_cons, List.flatMap_nil, List.append_nil]
  rw [groupNames_suffix _ m h1, groupNames_suffix _ n h1, List.nodup_append]
  have inj : ∀ k : Str, ((groupNames modePumpedLossy []).map (· ++ k)).Nodup := fun k => h2.map fun a b h => List.append_cancel_right h
  constructor
  · rintro ⟨-, -, hd⟩
    have no : ∀ a ∈ groupNames modePumpedLossy [], ∀ b ∈ groupNames modePumpedLossy [], a ++ m ≠ b ++ n := fun a ha b hb => hd _ (List.mem_map_of_mem ha) _ (List.mem_map_of_mem hb)
    refine ⟨?_, ?_, ?_, ?_, ?_⟩ <;> rintro rfl
    · exact no _ hex.1 _ hex.1 rfl
    · exact no _ hex.1 _ hex.2.1 (by rw [← List.append_assoc]; rfl)
    · exact no _ hex.2.1 _ hex.1 (by rw [← List.append_assoc]; rfl)
    · exact no _ hex.2.2.1 _ hex.2.2.2 (by rw [← List.append_assoc]; rfl)
    · exact no _ hex.2.2.2 _ hex.2.2.1 (by rw [← List.append_assoc]; rfl)
  · rintro ⟨c1, c2, c3, c4, c5⟩
    refine ⟨inj m, inj n, ?_⟩
    intro x hx y hy e
    obtain ⟨a, ha, rfl⟩ := List.mem_map.1 hx
    obtain ⟨b, hb, rfl⟩ := List.mem_map.1 hy
    rcases List.append_eq_append_iff.1 e with ⟨s, e1, e2⟩ | ⟨s, e1, e2⟩
    · rcases hpre a ha b hb ⟨s, e1.symm⟩ with h | h | h <;> rw [h] at e1
      · obtain rfl : s = [] := by simpa using e1
        exact c1 e2
      · exact c2 (e2.trans (by rw [List.append_cancel_left e1]))
      · exact c4 (e2.trans (by rw [List.append_cancel_left e1]))
    · rcases hpre b hb a ha ⟨s, e1.symm⟩ with h | h | h <;> rw [h] at e1
      · obtain rfl : s = [] := by simpa using e1
        exact c1 e2.symm
      · exact c3 (e2.trans (by rw [List.append_cancel_left e1]))
      · exact c5 (e2.trans (by rw [List.append_cancel_left e1]))

/-- **C174.** Two scans of distribution functions on one table throw, whatever the suffixes are. -/
theorem functionScan_twice (ty : String → (Str → Option (V × ℕ)) × V) (t : Table V) (ht : Built t) (a b c : List (List Item × Str)) (m n : Str) :
    registerAll ty (a ++ (functionScanPars, m) :: b ++ (functionScanPars, n) :: c) t = none := by
  rw [← Option.not_isSome_iff_eq_none, Option.isSome_iff_exists, (registerAll_iff ty _ t ht).1]
  intro h
  have hs : ∀ k : Str, "fStep".toList ∈ groupNames functionScanPars k := fun k => by simp [functionScanPars, groupNames, itemNames]
  rw [List.nodup_append] at h
  have h := h.2.1
  rw [jobNames, List.flatMap_append, List.nodup_append] at h
  refine h.2.2 "fStep".toList ?_ "fStep".toList ?_ rfl
  · exact List.mem_flatMap.2 ⟨(functionScanPars, m), by simp, hs m⟩
  · exact List.mem_flatMap.2 ⟨(functionScanPars, n), by simp, hs n⟩

/-- **C174.** A spin and a lossy qbit need different suffixes: both have a parameter `gamma`. -/
theorem spin_qbit (ty : String → (Str → Option (V × ℕ)) × V) (t : Table V) (ht : Built t) (m : Str) : registerAll ty [(spinPars, m), (qbitPumpedLossy, m)] t = none := by
  rw [← Option.not_isSome_iff_eq_none, Option.isSome_iff_exists, (registerAll_iff ty _ t ht).1]
  intro h
  rw [List.nodup_append] at h
  have h := h.2.1
  rw [jobNames, List.flatMap_cons, List.nodup_append] at h
  refine h.2.2 ("gamma".toList ++ m) ?_ ("gamma".toList ++ m) ?_ rfl
  · simp [spinPars, groupNames, itemNames]
  · simp [qbitPumpedLossy, qbitPumped, qbitPars, groupNames, itemNames]


/-! ## Examples -/

/-- Three numbered modes beside the driver, a qbit and a coupling without suffix. -/
example (ty : String → (Str → Option (V × ℕ)) × V) : ∃ t', registerAll ty [(evolutionPars, []), (modePumpedLossy, ['1']), (modePumpedLossy, ['2']), (modeLossy, ['1', '0']), (qbitPumpedLossy, []), (jaynesCummingsPars, [])] [] = some t' :=
  numbered_groups ty _ (by decide +kernel) (((by decide +kernel : List.Pairwise (fun a b : List Item × Str => a.2 = b.2 → ∀ x ∈ groupNames a.1 [], ∀ y ∈ groupNames b.1 [], x ≠ y)
    [(evolutionPars, []), (modePumpedLossy, ['1']), (modePumpedLossy, ['2']), (modeLossy, ['1', '0']), (qbitPumpedLossy, []), (jaynesCummingsPars, [])])).imp fun h e => List.disjoint_iff_ne.2 (h e))

example (ty : String → (Str → Option (V × ℕ)) × V) := numbered_copies ty spinPars (by decide +kernel) [['1'], ['2'], ['1', '1']] (by decide) (by decide)

/-- `QbitMode_C++QED.cc:18-21`, `Ring.cc:11-16`, `Optomechanics.cc:21-23`. -/
example (ty : String → (Str → Option (V × ℕ)) × V) : (∃ t', registerAll ty [(evolutionPars, []), (qbitPumpedLossyPhaseNoise, []), (modePumpedLossy, []), (jaynesCummingsPars, [])] [] = some t') ∧
    (∃ t', registerAll ty [(evolutionPars, []), (particlePars, []), (modePumpedLossy, ['P']), (modePumpedLossy, ['M']), (alongPars, ['P']), (alongPars, ['M'])] [] = some t') ∧
    ∃ t', registerAll ty [(evolutionPars, []), (modePumpedLossy, "Opt".toList), (modeLossy, "Mech".toList)] [] = some t' := by
  refine ⟨?_, ?_, ?_⟩ <;> rw [(registerAll_iff ty _ [] .nil).1, List.map_nil, List.nil_append] <;> decide +kernel

example (ty : String → (Str → Option (V × ℕ)) × V) : ¬ ∃ t', registerAll ty [(modePumpedLossy, []), (modePumpedLossy, "Alter".toList)] [] = some t' := by
  rw [twoModes_partial]; simp


end CppQED.Pars
