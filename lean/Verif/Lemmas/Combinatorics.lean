import Verif.Model.Combinatorics
import Mathlib.Data.Nat.Choose.Basic
import Mathlib.Data.List.Nodup
import Mathlib.Data.List.Flatten
import Mathlib.Algebra.BigOperators.Group.List.Basic
import Mathlib.Tactic.Ring

/-! Helper lemmas for `Verif.Props.Combinatorics`. -/

namespace CppQED.CWR

/-- enumeration of the vectors of `n+1` numbers with sum `r` -/
def comps : ℕ → ℕ → List (List ℕ)
  | 0, r => [[r]]
  | n + 1, r => (List.range (r + 1)).flatMap (fun p => (comps n (r - p)).map (p :: ·))

theorem mem_comps (n r : ℕ) (v : List ℕ) : v ∈ comps n r ↔ v.length = n + 1 ∧ v.sum = r := by
  induction n generalizing r v with
  | zero =>
    simp only [comps, List.mem_singleton]
    constructor
    · rintro rfl; simp
    · rintro ⟨h1, h2⟩
      obtain ⟨a, rfl⟩ := List.length_eq_one_iff.1 (by simpa using h1)
      simpa using h2
  | succ n ih =>
    simp only [comps, List.mem_flatMap, List.mem_range, List.mem_map]
    constructor
    · rintro ⟨p, hp, w, hw, rfl⟩
      rw [ih] at hw
      simp [hw.1, hw.2]; omega
    · rintro ⟨h1, h2⟩
      cases v with
      | nil => simp at h1
      | cons p w =>
        simp only [List.sum_cons, List.length_cons] at h1 h2
        exact ⟨p, by omega, w, (ih _ _).2 ⟨by omega, by omega⟩, rfl⟩

theorem comps_nodup (n r : ℕ) : (comps n r).Nodup := by
  induction n generalizing r with
  | zero => simp [comps]
  | succ n ih =>
    rw [comps, List.nodup_flatMap]
    refine ⟨fun p _ => (ih _).map (fun a b h => by simpa using h), ?_⟩
    refine List.Pairwise.imp ?_ (List.nodup_range (n := r + 1))
    intro a b hab v hva hvb
    simp only [List.mem_map] at hva hvb
    obtain ⟨x, _, rfl⟩ := hva
    obtain ⟨y, _, h⟩ := hvb
    simp at h
    exact hab h.1.symm

theorem sum_multichoose (n r : ℕ) : ((List.range (r + 1)).map (fun p => Nat.multichoose (n + 1) (r - p))).sum = Nat.multichoose (n + 2) r := by
  induction r with
  | zero => simp
  | succ r ih =>
    rw [List.range_succ_eq_map, List.map_cons, List.sum_cons, List.map_map, Nat.multichoose_succ_succ, ← ih]
    simp only [Nat.sub_zero]
    congr 1
    apply congrArg
    apply List.map_congr_left
    intro p _
    simp

theorem comps_length (n r : ℕ) : (comps n r).length = multiChoose (n + 1) r := by
  have : (comps n r).length = Nat.multichoose (n + 1) r := by
    induction n generalizing r with
    | zero => simp [comps]
    | succ n ih =>
      rw [comps, List.length_flatMap, ← sum_multichoose]
      simp [ih]
  rw [this, Nat.multichoose_eq, multiChoose]

/-- the table `t` with the rows of `L` written from row `i` and column `site` on -/
def overlay (n : ℕ) (t : Table) (i site : ℕ) (L : List (List ℕ)) : Table := fun r s =>
  if site ≤ s ∧ s < n ∧ i ≤ r ∧ r < i + L.length then (L.getD (r - i) []).getD (s - site) 0 else t r s

theorem fillCol_apply (t : Table) (i offset site v r s : ℕ) :
    fillCol t i offset site v r s = if s = site ∧ i ≤ r ∧ r < i + offset then v else t r s := by
  induction offset with
  | zero => simp only [fillCol, List.range_zero, List.foldl_nil]; rw [if_neg]; omega
  | succ m ih =>
    unfold fillCol at ih ⊢
    rw [List.range_succ, List.foldl_append]
    simp only [List.foldl_cons, List.foldl_nil, setCell]
    rw [ih]
    by_cases h : r = i + m ∧ s = site
    · rw [if_pos h, if_pos]; omega
    · rw [if_neg h]
      by_cases h2 : s = site ∧ i ≤ r ∧ r < i + m
      · rw [if_pos h2, if_pos]; omega
      · rw [if_neg h2, if_neg]; omega

theorem fillCol_overlay (n : ℕ) (t : Table) (i site p : ℕ) (L : List (List ℕ)) (hs : site < n) :
    fillCol (overlay n t i (site + 1) L) i L.length site p = overlay n t i site (L.map (p :: ·)) := by
  funext r s
  rw [fillCol_apply]
  simp only [overlay, List.length_map]
  by_cases h1 : i ≤ r ∧ r < i + L.length
  · have hget : (L.map (p :: ·)).getD (r - i) [] = p :: L.getD (r - i) [] := by
      have : r - i < L.length := by omega
      simp [List.getD_eq_getElem?_getD, this]
    by_cases h2 : s = site
    · rw [if_pos ⟨h2, h1⟩, if_pos (by omega), hget]; subst h2; simp
    · rw [if_neg (by omega)]
      by_cases h3 : site ≤ s ∧ s < n
      · rw [if_pos (by omega), if_pos (by omega), hget]
        obtain ⟨m, hm⟩ : ∃ m, s - site = m + 1 := ⟨s - site - 1, by omega⟩
        rw [hm, List.getD_cons_succ]; congr 1; omega
      · rw [if_neg (by omega), if_neg (by omega)]
  · rw [if_neg (by omega), if_neg (by omega), if_neg (by omega)]

theorem overlay_append (n : ℕ) (t : Table) (i site : ℕ) (A B : List (List ℕ)) :
    overlay n (overlay n t i site A) (i + A.length) site B = overlay n t i site (A ++ B) := by
  funext r s
  simp only [overlay, List.length_append]
  by_cases h1 : site ≤ s ∧ s < n
  · by_cases h2 : i + A.length ≤ r ∧ r < i + A.length + B.length
    · rw [if_pos (by omega), if_pos (by omega)]
      congr 1
      simp only [List.getD_eq_getElem?_getD]
      rw [List.getElem?_append_right (by omega)]
      congr 2; omega
    · rw [if_neg (by omega)]
      by_cases h3 : i ≤ r ∧ r < i + A.length
      · rw [if_pos (by omega), if_pos (by omega)]
        congr 1
        simp only [List.getD_eq_getElem?_getD]
        rw [List.getElem?_append_left (by omega)]
      · rw [if_neg (by omega), if_neg (by omega)]
  · rw [if_neg (by omega), if_neg (by omega), if_neg (by omega)]

theorem recurse_eq (n k : ℕ) (hk : k < n) (t : Table) (i r : ℕ) :
    recurse n k t i r = overlay n t i (n - 1 - k) (comps k r) := by
  induction k generalizing t i r with
  | zero =>
    funext a b
    have hl : (comps 0 r).length = 1 := rfl
    simp only [recurse, setCell, overlay]
    by_cases h : a = i ∧ b = n - 1
    · rw [if_pos h, if_pos (by omega)]
      obtain ⟨rfl, rfl⟩ := h
      simp [comps]
    · rw [if_neg h, if_neg (by omega)]
  | succ k ih =>
    rw [recurse, comps]
    have hsite : n - (n - 1 - (k + 1)) - 1 = k + 1 := by omega
    rw [hsite]
    have key : ∀ m, m ≤ r + 1 → ((List.range m).foldl (fun (st : Table × ℕ) putHere =>
        let t := recurse n k st.1 st.2 (r - putHere)
        let offset := multiChoose (k + 1) (r - putHere)
        (fillCol t st.2 offset (n - 1 - (k + 1)) putHere, st.2 + offset)) (t, i)) =
        (overlay n t i (n - 1 - (k + 1)) ((List.range m).flatMap (fun p => (comps k (r - p)).map (p :: ·))),
          i + ((List.range m).flatMap (fun p => (comps k (r - p)).map (p :: ·))).length) := by
      intro m
      induction m with
      | zero =>
        intro _
        simp only [List.range_zero, List.foldl_nil, List.flatMap_nil, List.length_nil, Nat.add_zero, Prod.mk.injEq, and_true]
        funext a b
        simp only [overlay, List.length_nil]; rw [if_neg]; omega
      | succ m ihm =>
        intro hm
        rw [List.range_succ, List.foldl_append, ihm (by omega), List.flatMap_append]
        simp only [List.foldl_cons, List.foldl_nil, List.flatMap_cons, List.flatMap_nil, List.append_nil]
        rw [ih (by omega), show n - 1 - k = (n - 1 - (k + 1)) + 1 by omega, ← comps_length, fillCol_overlay _ _ _ _ _ _ (by omega),
          overlay_append]
        simp [Nat.add_assoc]
    rw [key (r + 1) (le_refl _)]

theorem impl_eq (n k : ℕ) (hn : 0 < n) : impl n k = comps (n - 1) k := by
  have hlen : multiChoose n k = (comps (n - 1) k).length := by rw [comps_length]; congr; omega
  apply List.ext_getElem
  · simp [impl, hlen]
  · intro i h1 h2
    simp only [impl, List.getElem_map, List.getElem_range]
    rw [recurse_eq n (n - 1) (by omega)]
    have hm := (mem_comps (n-1) k _).1 (List.getElem_mem h2)
    apply List.ext_getElem
    · simp; omega
    · intro j h3 h4
      simp only [List.getElem_map, List.getElem_range, overlay]
      rw [if_pos (by simp at h3; omega)]
      have : (comps (n-1) k).getD (i - 0) [] = (comps (n-1) k)[i] := by
        simp [List.getD_eq_getElem?_getD, h2]
      rw [this]
      simp [List.getD_eq_getElem?_getD, h4]

end CppQED.CWR
