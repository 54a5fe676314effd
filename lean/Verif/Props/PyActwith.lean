import Verif.Props.PyState

/-!
# Acting with operators in Python: C139 and C140
-/

namespace CppQED.PyTools
open CppQED.Tridiag CppQED.PySpec ComplexConjugate

/-- the matrix of the product of operators on different subsystems `dims`, extended with the identity to the other subsystems -/
noncomputable def productMatrix (n : ℕ) (ops : List NDArray) (dims : List ℕ) (x y : List ℕ) : ℂ :=
  if AgreeOff n dims x y then (List.zipWith (fun (o : NDArray) d => o.val [x.getD d 0, y.getD d 0]) ops dims).prod else 0

theorem outDims_aux (dims : List ℕ) (h : dims.Nodup) (l : List ℕ) (hl : ∀ d ∈ dims, d < l.length) :
    (dims.foldl (fun l d => l.set d (l.getD d 0 + 1)) l).length = l.length ∧
    ∀ p, (dims.foldl (fun l d => l.set d (l.getD d 0 + 1)) l).getD p 0 = if p ∈ dims then l.getD p 0 + 1 else l.getD p 0 := by
  induction dims generalizing l with
  | nil => simp
  | cons d ds ih =>
    obtain ⟨h1, h2⟩ := List.nodup_cons.1 h
    obtain ⟨i1, i2⟩ := ih h2 (l.set d (l.getD d 0 + 1)) (fun e he => by simpa using hl e (by simp [he]))
    rw [List.foldl_cons]
    refine ⟨by rw [i1]; simp, fun p => ?_⟩
    rw [i2]
    have hd : d < l.length := hl d (by simp)
    have hset : (l.set d (l.getD d 0 + 1)).getD p 0 = if p = d then l.getD d 0 + 1 else l.getD p 0 := by
      simp only [List.getD_eq_getElem?_getD, List.getElem?_set]
      by_cases hpd : d = p
      · subst hpd; simp [hd]
      · rw [if_neg hpd, if_neg (Ne.symm hpd)]
    rw [hset]
    by_cases hpd : p = d
    · subst hpd; simp [h1]
    · simp [hpd]

/-- the labels of the axes of the state -/
theorem outDims_ok {n : ℕ} {dims : List ℕ} (h : dims.Nodup) (hd : ∀ d ∈ dims, d < n) : outDims n dims = .ok ((List.range n).map fun p => if p ∈ dims then 2 * p + 1 else 2 * p) := by
  unfold outDims
  rw [if_pos hd]
  congr 1
  obtain ⟨h1, h2⟩ := outDims_aux dims h ((List.range n).map (2 * ·)) (by simpa using hd)
  refine ext_getD (n := n) (by rw [h1]; simp) (by simp) fun p hp => ?_
  rw [h2, getD_map_range _ hp, getD_map_range _ hp]

theorem extent_eq (ops : List (NDArray × List ℕ)) (e : ℕ → ℕ) (h : ∀ o ∈ ops, ∀ p < o.2.length, o.1.shape.getD p 0 = e (o.2.getD p 0)) {l : ℕ} (hl : l ∈ ops.flatMap Prod.snd) : extent ops l = e l := by
  induction ops with
  | nil => simp at hl
  | cons o ops ih =>
    obtain ⟨a, ls⟩ := o
    rw [extent]
    by_cases hm : l ∈ ls
    · rw [if_pos hm, h (a, ls) (by simp) _ (List.idxOf_lt_length_iff.2 hm), getD_idxOf hm]
    · rw [if_neg hm]
      refine ih (fun o ho => h o (by simp [ho])) ?_
      simpa [hm] using hl

theorem count_pairs (dims : List ℕ) (p : ℕ) : (dims.flatMap fun d => [2 * d, 2 * d + 1]).count (2 * p) = dims.count p ∧ (dims.flatMap fun d => [2 * d, 2 * d + 1]).count (2 * p + 1) = dims.count p := by
  induction dims with
  | nil => simp
  | cons d ds ih =>
    rw [List.flatMap_cons, List.count_append, List.count_append, ih.1, ih.2, List.count_cons]
    by_cases h : d = p
    · subst h
      have : 2 * d ≠ 2 * d + 1 := by omega
      constructor <;> simp [List.count_cons] <;> omega
    · have h1 : 2 * d ≠ 2 * p := by omega
      have h2 : 2 * d + 1 ≠ 2 * p := by omega
      have h3 : 2 * d ≠ 2 * p + 1 := by omega
      constructor <;> simp [List.count_cons, h, h2, h3]

theorem count_state (n : ℕ) (dims : List ℕ) (p : ℕ) :
    ((List.range n).map fun p => if p ∈ dims then 2 * p + 1 else 2 * p).count (2 * p) = (if p < n ∧ p ∉ dims then 1 else 0) ∧
    ((List.range n).map fun p => if p ∈ dims then 2 * p + 1 else 2 * p).count (2 * p + 1) = (if p < n ∧ p ∈ dims then 1 else 0) := by
  have hinj : ((List.range n).map fun p => if p ∈ dims then 2 * p + 1 else 2 * p).Nodup := by
    refine (List.nodup_range).map_on fun a _ b _ hab => ?_
    split_ifs at hab <;> omega
  rw [hinj.count, hinj.count]
  have hm : ∀ l, l ∈ (List.range n).map (fun p => if p ∈ dims then 2 * p + 1 else 2 * p) ↔ ∃ q < n, (if q ∈ dims then 2 * q + 1 else 2 * q) = l := by
    intro l; simp
  constructor
  · refine if_congr ?_ rfl rfl
    rw [hm]
    constructor
    · rintro ⟨q, hq, h⟩
      split_ifs at h with hqd
      · omega
      · obtain rfl : q = p := by omega
        exact ⟨hq, hqd⟩
    · rintro ⟨h1, h2⟩
      exact ⟨p, h1, by rw [if_neg h2]⟩
  · refine if_congr ?_ rfl rfl
    rw [hm]
    constructor
    · rintro ⟨q, hq, h⟩
      split_ifs at h with hqd
      · obtain rfl : q = p := by omega
        exact ⟨hq, hqd⟩
      · omega
    · rintro ⟨h1, h2⟩
      exact ⟨p, h1, by rw [if_pos h2]⟩

theorem sorted_eq {l l' : List ℕ} (h : l.Pairwise (· < ·)) (h' : l'.Pairwise (· < ·)) (hm : ∀ p, p ∈ l ↔ p ∈ l') : l = l' := by
  refine List.Perm.eq_of_pairwise' (r := (· ≤ ·)) (h.imp le_of_lt) (h'.imp le_of_lt) ?_
  rw [List.perm_ext_iff_of_nodup (h.imp ne_of_lt) (h'.imp ne_of_lt)]
  exact hm

theorem le_foldr_max {l : List ℕ} {x : ℕ} (h : x ∈ l) : x ≤ l.foldr max 0 := by
  induction l with
  | nil => simp at h
  | cons a l ih =>
    rw [List.foldr_cons]
    rcases List.mem_cons.1 h with h | h
    · exact h ▸ le_max_left _ _
    · exact (ih h).trans (le_max_right _ _)

theorem idxOf_map {l : List ℕ} {f : ℕ → ℕ} (hf : Function.Injective f) (p : ℕ) : (l.map f).idxOf (f p) = l.idxOf p := by
  induction l with
  | nil => rfl
  | cons a l ih =>
    rw [List.map_cons, List.idxOf_cons, List.idxOf_cons, ih]
    by_cases h : a = p
    · subst h; rw [beq_self_eq_true, beq_self_eq_true]
    · have : f a ≠ f p := fun hh => h (hf hh)
      rw [beq_false_of_ne h, beq_false_of_ne this]

theorem idxOf_range {n p : ℕ} (h : p < n) : (List.range n).idxOf p = p := by
  have := idxOf_getD (List.nodup_range (n := n)) (r := p) (by simpa using h)
  rwa [show (List.range n).getD p 0 = p from by rw [List.getD_eq_getElem _ _ (by simpa using h)]; simp] at this

/-- **C139.** `actwith` acts with the product of the given operators on the given, distinct, subsystems, in whatever order these are given, and leaves the other subsystems alone. -/
theorem actwith_spec (a : NDArray) (ops : List NDArray) (dims : List ℕ) (hlen : ops.length = dims.length) (hn : dims.Nodup) (hd : ∀ d ∈ dims, d < a.ndim)
    (hs : List.Forall₂ (fun (o : NDArray) d => o.shape = [a.shape.getD d 0, a.shape.getD d 0]) ops dims) :
    ∃ b, actwith a ops dims = .ok b ∧ b.shape = a.shape ∧ ∀ x ∈ box a.shape, b.val x = PySpec.apply a.shape (productMatrix a.ndim ops dims) a.val x := by
  set n := a.ndim with hnd
  set st : ℕ → ℕ := fun p => if p ∈ dims then 2 * p + 1 else 2 * p with hst
  set zs := List.zipWith (fun (o : NDArray) d => (o, [2 * d, 2 * d + 1])) ops dims with hzs
  set opsAll : List (NDArray × List ℕ) := zs ++ [(a, (List.range n).map st)] with hall
  have hzl : zs.flatMap Prod.snd = dims.flatMap fun d => [2 * d, 2 * d + 1] := by
    rw [hzs]
    clear_value n st
    clear hs hall opsAll hzs zs hn hd hst
    induction ops generalizing dims with
    | nil =>
      obtain rfl : dims = [] := by simpa using hlen.symm
      rfl
    | cons o ops ih =>
      cases dims with
      | nil => simp at hlen
      | cons d ds =>
        rw [List.zipWith_cons_cons, List.flatMap_cons, List.flatMap_cons, ih ds (by simpa using hlen)]
  have hlab : opsAll.flatMap Prod.snd = (dims.flatMap fun d => [2 * d, 2 * d + 1]) ++ (List.range n).map st := by
    rw [hall, List.flatMap_append, hzl]; simp
  have hc0 : ∀ p, (opsAll.flatMap Prod.snd).count (2 * p) = if p < n then 1 else 0 := by
    intro p
    rw [hlab, List.count_append, (count_pairs dims p).1, (count_state n dims p).1, hn.count]
    by_cases h1 : p ∈ dims
    · simp [h1, hd p h1]
    · by_cases h2 : p < n <;> simp [h1, h2]
  have hc1 : ∀ p, (opsAll.flatMap Prod.snd).count (2 * p + 1) = if p ∈ dims then 2 else 0 := by
    intro p
    rw [hlab, List.count_append, (count_pairs dims p).2, (count_state n dims p).2, hn.count]
    by_cases h1 : p ∈ dims
    · simp [h1, hd p h1]
    · simp [h1]
  set out := (List.range ((opsAll.flatMap Prod.snd).foldr max 0 + 1)).filter (fun l => (opsAll.flatMap Prod.snd).count l = 1) with hout
  set summed := (List.range ((opsAll.flatMap Prod.snd).foldr max 0 + 1)).filter (fun l => 1 < (opsAll.flatMap Prod.snd).count l) with hsummed
  have hmem : ∀ l, 0 < (opsAll.flatMap Prod.snd).count l → l ∈ List.range ((opsAll.flatMap Prod.snd).foldr max 0 + 1) := by
    intro l hl
    have := le_foldr_max (List.count_pos_iff.1 hl)
    simp only [List.mem_range]; omega
  have hout' : out = (List.range n).map (2 * ·) := by
    refine sorted_eq ((List.pairwise_lt_range).filter _) ?_ fun l => ?_
    · rw [List.pairwise_map]
      exact (List.pairwise_lt_range).imp fun h => by omega
    · rw [hout, List.mem_filter]
      simp only [decide_eq_true_eq, List.mem_map, List.mem_range (n := n)]
      constructor
      · rintro ⟨_, h⟩
        rcases Nat.even_or_odd' l with ⟨p, rfl | rfl⟩
        · rw [hc0] at h
          by_cases hp : p < n
          · exact ⟨p, hp, rfl⟩
          · simp [hp] at h
        · rw [hc1] at h
          split_ifs at h <;> omega
      · rintro ⟨p, hp, rfl⟩
        have : (opsAll.flatMap Prod.snd).count (2 * p) = 1 := by rw [hc0, if_pos hp]
        exact ⟨hmem _ (by omega), this⟩
  have hsum' : summed = (among n dims).map (2 * · + 1) := by
    refine sorted_eq ((List.pairwise_lt_range).filter _) ?_ fun l => ?_
    · rw [List.pairwise_map]
      exact ((List.pairwise_lt_range).filter _).imp fun h => by omega
    · rw [hsummed, List.mem_filter]
      simp only [decide_eq_true_eq, List.mem_map, among, List.mem_filter, List.mem_range (n := n)]
      constructor
      · rintro ⟨_, h⟩
        rcases Nat.even_or_odd' l with ⟨p, rfl | rfl⟩
        · rw [hc0] at h
          split_ifs at h <;> omega
        · rw [hc1] at h
          by_cases hp : p ∈ dims
          · exact ⟨p, ⟨hd p hp, hp⟩, rfl⟩
          · simp [hp] at h
      · rintro ⟨p, ⟨_, hp⟩, rfl⟩
        have : (opsAll.flatMap Prod.snd).count (2 * p + 1) = 2 := by rw [hc1, if_pos hp]
        exact ⟨hmem _ (by omega), by omega⟩
  -- the extents
  have hzmem : ∀ o ∈ zs, ∃ d ∈ dims, o.2 = [2 * d, 2 * d + 1] ∧ o.1.shape = [a.shape.getD d 0, a.shape.getD d 0] := by
    rw [hzs]
    clear_value n st
    clear hzl hlab hc0 hc1 hout hsummed out summed hmem hout' hsum' hall opsAll hzs zs hn hd hst
    intro o ho
    induction hs with
    | nil => simp at ho
    | @cons o' d' os ds h hs ih =>
      rw [List.zipWith_cons_cons] at ho
      rcases List.mem_cons.1 ho with ho | ho
      · exact ⟨d', by simp, by rw [ho], by rw [ho]; exact h⟩
      · obtain ⟨d, hd, h'⟩ := ih (by simpa using hlen) ho
        exact ⟨d, by simp [hd], h'⟩
  have hshape : ∀ o ∈ opsAll, o.2.length = o.1.ndim ∧ ∀ p < o.2.length, o.1.shape.getD p 0 = a.shape.getD (o.2.getD p 0 / 2) 0 := by
    intro o ho
    rw [hall, List.mem_append, List.mem_singleton] at ho
    rcases ho with ho | rfl
    · obtain ⟨d, _, h1, h2⟩ := hzmem o ho
      refine ⟨by unfold NDArray.ndim; rw [h1, h2]; rfl, fun p hp => ?_⟩
      rw [h1] at hp ⊢
      rw [h2]
      have hp2 : p = 0 ∨ p = 1 := by simp at hp; omega
      rcases hp2 with rfl | rfl
      · simp
      · have : (2 * d + 1) / 2 = d := by omega
        simp [this]
    · refine ⟨by simp [hnd], fun p hp => ?_⟩
      have hp' : p < n := by simpa using hp
      dsimp only
      rw [getD_map_range _ hp', hst]
      congr 1
      dsimp only
      split_ifs <;> omega
  have hext : ∀ l ∈ opsAll.flatMap Prod.snd, extent opsAll l = a.shape.getD (l / 2) 0 :=
    fun l hl => extent_eq opsAll (fun l => a.shape.getD (l / 2) 0) (fun o ho => (hshape o ho).2) hl
  have hcond : ∀ o ∈ opsAll, o.2.length = o.1.ndim ∧ ∀ p < o.1.ndim, o.1.shape.getD p 0 = extent opsAll (o.2.getD p 0) := by
    intro o ho
    obtain ⟨h1, h2⟩ := hshape o ho
    refine ⟨h1, fun p hp => ?_⟩
    rw [h2 p (h1 ▸ hp), hext _ (List.mem_flatMap.2 ⟨o, ho, getD_mem (h1 ▸ hp)⟩)]
  have hext0 : ∀ p < n, extent opsAll (2 * p) = a.shape.getD p 0 := by
    intro p hp
    rw [hext _ (List.count_pos_iff.1 (by rw [hc0, if_pos hp]; norm_num))]
    congr 1; omega
  have hext1 : ∀ p ∈ dims, extent opsAll (2 * p + 1) = a.shape.getD p 0 := by
    intro p hp
    rw [hext _ (List.count_pos_iff.1 (by rw [hc1, if_pos hp]; norm_num))]
    congr 1; omega
  -- the two sets of axes
  have hmema : ∀ p, p ∈ among n dims ↔ p ∈ dims := fun p => by
    unfold among
    rw [List.mem_filter]
    simp only [List.mem_range, decide_eq_true_eq, and_iff_right_iff_imp]
    exact hd p
  have hmemo : ∀ p, p ∈ others n dims ↔ p < n ∧ p ∉ dims := fun p => by
    unfold others
    rw [List.mem_filter]
    simp only [List.mem_range, decide_eq_true_eq]
  have hP : Partition a.shape.length (among n dims) (others n dims) :=
    ⟨fun p hp => hd p ((hmema p).1 hp), (List.nodup_range).filter _, (List.nodup_range).filter _, fun p => by
      rw [hmemo, hmema]; exact Iff.rfl⟩
  have hev : actwith a ops dims = einsum opsAll := by
    unfold actwith
    rw [if_pos hlen, outDims_ok hn hd]
    rfl
  refine ⟨_, hev.trans (if_pos hcond), ?_, fun x hx => ?_⟩
  · dsimp only
    show out.map (extent opsAll) = a.shape
    rw [hout', List.map_map]
    refine ext_getD (n := n) (by simp) rfl fun p hp => ?_
    rw [getD_map_range _ hp]
    exact hext0 p hp
  · show sumBox (summed.map (extent opsAll)) _ = _
    have hsm : summed.map (extent opsAll) = (among n dims).map (a.shape.getD · 0) := by
      rw [hsum', List.map_map]
      exact List.map_congr_left fun p hp => hext1 p ((hmema p).1 hp)
    rw [hsm, sumBox_eq]
    have hxl : x.length = n := length_of_mem_box hx
    -- the sum over all the states reduces to those that agree with `x` off `dims`
    have hred : PySpec.apply a.shape (productMatrix n ops dims) a.val x = ∑ y ∈ box a.shape with restrict (others n dims) y = restrict (others n dims) x,
        (List.zipWith (fun (o : NDArray) d => o.val [x.getD d 0, y.getD d 0]) ops dims).prod * a.val y := by
      unfold PySpec.apply
      rw [Finset.sum_filter]
      refine Finset.sum_congr rfl fun y hy => ?_
      have hiff : AgreeOff n dims x y ↔ restrict (others n dims) y = restrict (others n dims) x := by
        unfold restrict
        rw [List.map_inj_left]
        constructor
        · intro h p hp
          obtain ⟨h1, h2⟩ := (hmemo p).1 hp
          exact (h p h1 h2).symm
        · intro h p h1 h2
          exact (h p ((hmemo p).2 ⟨h1, h2⟩)).symm
      unfold productMatrix
      by_cases h : AgreeOff n dims x y
      · rw [if_pos h, if_pos (hiff.1 h)]
      · rw [if_neg h, if_neg (fun hh => h (hiff.2 hh)), zero_mul]
    rw [hred, sum_part hP _ (restrict_mem_box hP.keep_lt hx)]
    refine Finset.sum_congr rfl fun m hm => ?_
    show (opsAll.map fun o => o.1.val (o.2.map fun l => if l ∈ out then x.getD (out.idxOf l) 0 else m.getD (summed.idxOf l) 0)).prod = _
    set y := assemble a.shape.length (among n dims) m (others n dims) (restrict (others n dims) x) with hy
    have hv0 : ∀ p < n, (if 2 * p ∈ out then x.getD (out.idxOf (2 * p)) 0 else m.getD (summed.idxOf (2 * p)) 0) = x.getD p 0 := by
      intro p hp
      have : 2 * p ∈ out := by
        rw [hout']
        exact List.mem_map.2 ⟨p, by simpa using hp, rfl⟩
      rw [if_pos this, hout', idxOf_map (f := (2 * ·)) (fun a b h => by simpa using h), idxOf_range hp]
    have hv1 : ∀ p ∈ dims, (if 2 * p + 1 ∈ out then x.getD (out.idxOf (2 * p + 1)) 0 else m.getD (summed.idxOf (2 * p + 1)) 0) = y.getD p 0 := by
      intro p hp
      have : 2 * p + 1 ∉ out := by
        rw [hout']
        intro hh
        obtain ⟨q, _, h⟩ := List.mem_map.1 hh
        omega
      rw [if_neg this, hsum', idxOf_map (f := (2 * · + 1)) (fun a b h => by simpa using h), hy, assemble_axes hP ((hmema p).2 hp)]
    have hvo : ∀ p < n, p ∉ dims → x.getD p 0 = y.getD p 0 := by
      intro p hp hpd
      have hpo := (hmemo p).2 ⟨hp, hpd⟩
      rw [hy, assemble_keep hP hpo, restrict, getD_map _ (List.idxOf_lt_length_iff.2 hpo), getD_idxOf hpo]
    rw [hall, List.map_append, List.prod_append, List.map_singleton, List.prod_singleton]
    congr 1
    · -- the operators
      rw [hzs, List.map_zipWith]
      congr 1
      clear hs hzmem hshape hext hcond hext0 hext1 hev hred hall hlab hc0 hc1 hmem hzl
      have : ∀ (ops : List NDArray) (ds : List ℕ), (∀ d ∈ ds, d ∈ dims) →
          List.zipWith (fun (o : NDArray) d => o.val ([2 * d, 2 * d + 1].map fun l => if l ∈ out then x.getD (out.idxOf l) 0 else m.getD (summed.idxOf l) 0)) ops ds =
          List.zipWith (fun (o : NDArray) d => o.val [x.getD d 0, y.getD d 0]) ops ds := by
        intro ops
        induction ops with
        | nil => intro ds _; simp
        | cons o ops ih =>
          intro ds hds
          cases ds with
          | nil => simp
          | cons d ds =>
            rw [List.zipWith_cons_cons, List.zipWith_cons_cons, ih ds fun e he => hds e (by simp [he])]
            congr 2
            have hdd := hds d (by simp)
            rw [List.map_cons, List.map_cons, List.map_nil, hv0 d (hd d hdd), hv1 d hdd]
      exact this ops dims fun _ h => h
    · -- the state
      congr 1
      refine ext_getD (n := n) (by simp) (assemble_length _ _ _ _ _) fun p hp => ?_
      dsimp only
      rw [List.map_map, getD_map_range _ hp]
      simp only [Function.comp]
      by_cases hpd : p ∈ dims
      · rw [show st p = 2 * p + 1 from if_pos hpd]
        exact hv1 p hpd
      · rw [show st p = 2 * p from if_neg hpd, ← hvo p hp hpd]
        exact hv0 p hp

/-- **C140.** If a subsystem is given twice in order that two operators act one after the other, then neither acts: the state is multiplied by the number `Σ A(i,k) B(i,k)`. -/
theorem actwith_partial (N : ℕ) (psi A B : List ℕ → ℂ) :
    ∃ b, actwith ⟨[N], psi⟩ [⟨[N, N], A⟩, ⟨[N, N], B⟩] [0, 0] = .ok b ∧ b.shape = [N] ∧
      ∀ x < N, b.val [x] = (∑ i ∈ Finset.range N, ∑ k ∈ Finset.range N, A [i, k] * B [i, k]) * psi [x] := by
  have h0 : outDims 1 [0, 0] = .ok [2] := by
    unfold outDims
    rw [if_pos (by simp)]
    rfl
  have h1 : actwith ⟨[N], psi⟩ [⟨[N, N], A⟩, ⟨[N, N], B⟩] [0, 0] = einsum [(⟨[N, N], A⟩, [0, 1]), (⟨[N, N], B⟩, [0, 1]), (⟨[N], psi⟩, [2])] := by
    unfold actwith
    have hl : ([⟨[N, N], A⟩, ⟨[N, N], B⟩] : List NDArray).length = [0, 0].length := rfl
    rw [if_pos hl, show (⟨[N], psi⟩ : NDArray).ndim = 1 from rfl, h0]
    rfl
  rw [h1]
  refine ⟨_, if_pos ?_, ?_, fun x hx => ?_⟩
  · intro o ho
    simp only [List.mem_cons, List.not_mem_nil, or_false] at ho
    rcases ho with rfl | rfl | rfl <;> refine ⟨rfl, fun p hp => ?_⟩ <;> simp only [NDArray.ndim, List.length_cons, List.length_nil] at hp
    · have : p = 0 ∨ p = 1 := by omega
      rcases this with rfl | rfl <;> simp [extent]
    · have : p = 0 ∨ p = 1 := by omega
      rcases this with rfl | rfl <;> simp [extent]
    · obtain rfl : p = 0 := by omega
      simp [extent]
  · have : (List.range ((List.flatMap Prod.snd [((⟨[N, N], A⟩ : NDArray), [0, 1]), (⟨[N, N], B⟩, [0, 1]), (⟨[N], psi⟩, [2])]).foldr max 0 + 1)).filter
        (fun l => (List.flatMap Prod.snd [((⟨[N, N], A⟩ : NDArray), [0, 1]), (⟨[N, N], B⟩, [0, 1]), (⟨[N], psi⟩, [2])]).count l = 1) = [2] := by
      simp only [List.flatMap_cons, List.flatMap_nil]; decide
    dsimp only
    rw [this]
    simp [extent]
  · have e1 : (List.range ((List.flatMap Prod.snd [((⟨[N, N], A⟩ : NDArray), [0, 1]), (⟨[N, N], B⟩, [0, 1]), (⟨[N], psi⟩, [2])]).foldr max 0 + 1)).filter
        (fun l => (List.flatMap Prod.snd [((⟨[N, N], A⟩ : NDArray), [0, 1]), (⟨[N, N], B⟩, [0, 1]), (⟨[N], psi⟩, [2])]).count l = 1) = [2] := by
      simp only [List.flatMap_cons, List.flatMap_nil]; decide
    have e2 : (List.range ((List.flatMap Prod.snd [((⟨[N, N], A⟩ : NDArray), [0, 1]), (⟨[N, N], B⟩, [0, 1]), (⟨[N], psi⟩, [2])]).foldr max 0 + 1)).filter
        (fun l => 1 < (List.flatMap Prod.snd [((⟨[N, N], A⟩ : NDArray), [0, 1]), (⟨[N, N], B⟩, [0, 1]), (⟨[N], psi⟩, [2])]).count l) = [0, 1] := by
      simp only [List.flatMap_cons, List.flatMap_nil]; decide
    dsimp only
    rw [e1, e2]
    simp [extent, sumBox, Finset.sum_mul, List.idxOf_cons, mul_assoc]

/-! ## Examples -/

/-- a qubit in the state `(|0⟩+i|1⟩)/√2` has `⟨σ_y⟩ = 1`; the function returns `-1` -/
example : expvalue ⟨[2], fun x => if x = [0] then 1 else if x = [1] then Complex.I else 0⟩
    ⟨[2, 2], fun x => if x = [0, 1] then -Complex.I else if x = [1, 0] then Complex.I else 0⟩ (.seq [0]) = .ok (-2) := by
  rw [(expvalue_partial _).1 _ [0] (by simp [NDArray.ndim]) rfl]
  congr 1
  have hb : box [2] = {[0], [1]} := by decide
  have h0 : among 1 [0] = [0] := by decide
  simp only [NDArray.ndim, List.length_singleton, h0]
  unfold expectation
  rw [hb]
  have ha : ∀ x y, AgreeOff 1 [0] x y := by
    intro x y p hp hh
    exact absurd (by simp; omega) hh
  simp only [extended, if_pos (ha _ _)]
  simp [operatorOf, interleave, restrict, Finset.sum_pair]
  norm_num [Complex.ext_iff]

/-- the operator `a⊗1⊗σ` on a system of three parts -/
example (psi A B : List ℕ → ℂ) : ∃ b, actwith ⟨[4, 3, 2], psi⟩ [⟨[2, 2], B⟩, ⟨[4, 4], A⟩] [2, 0] = .ok b ∧ b.shape = [4, 3, 2] ∧
    ∀ x ∈ box [4, 3, 2], b.val x = ∑ y ∈ box [4, 3, 2], (if AgreeOff 3 [2, 0] x y then B [x.getD 2 0, y.getD 2 0] * A [x.getD 0 0, y.getD 0 0] else 0) * psi y := by
  obtain ⟨b, h1, h2, h3⟩ := actwith_spec ⟨[4, 3, 2], psi⟩ [⟨[2, 2], B⟩, ⟨[4, 4], A⟩] [2, 0] rfl (by decide) (by simp [NDArray.ndim]) (by simp)
  refine ⟨b, h1, h2, fun x hx => ?_⟩
  rw [h3 x hx, PySpec.apply]
  simp [productMatrix, NDArray.ndim]

/-- reduction of a system of three parts to the middle one -/
example (psi : List ℕ → ℂ) : ∃ b, reduce ⟨[4, 3, 2], psi⟩ [0, 2] false = .ok b ∧ b.shape = [3] ∧ ∀ y ∈ box [3], b.val y = ∑ x ∈ box [4, 3, 2] with restrict [1] x = y, psi x := by
  obtain ⟨b, h1, h2, h3, _⟩ := reduce_spec ⟨[4, 3, 2], psi⟩ [0, 2] (by decide) (by simp [NDArray.ndim])
  exact ⟨b, h1, h2, fun y hy => h3 y (h2 ▸ hy)⟩

end CppQED.PyTools
