import Verif.Props.Pars
import Verif.Props.Combinatorics
import Verif.Props.AveragingUtils
import Verif.Props.CMatrix
import Verif.Props.CompositeMake
import Verif.Props.Distribution
import Verif.Props.Evolved
import Verif.Props.ExampleMode
import Verif.Props.Autostop
import Verif.Props.ApplyGen

/-! Concrete inputs which meet the hypotheses of the theorems about the libraries. -/

open CppQED CppQED.Spec

namespace CppQED.LibraryCases

/-! ## Command lines (C47) -/

section
open Pars

/-- A number, a switch and a title. -/
def table : Table ℕ := [(['T'], .typed digit 7), ("log".toList, .bool false), ("no_log".toList, .negated 1), (['N'], .typed digit 2)]

theorem table_built : Built table :=
  ((Built.nil.add ['T'] digit 7 rfl : Built [(['T'], Kind.typed digit 7)]).addBool "log".toList false (t' := [(['T'], Kind.typed digit 7), ("log".toList, .bool false), ("no_log".toList, .negated 1)]) rfl).add ['N'] digit 2 rfl

theorem on_valid : ∀ s ∈ [Setting.on "log".toList], Setting.Valid (V := ℕ) table "--".toList s := by
  intro s hs
  obtain rfl := List.mem_singleton.1 hs
  exact ⟨⟨by decide, by decide, by decide, by decide⟩, false, rfl⟩

example := add_default (V := ℕ) [] [(['T'], .typed digit 7)] ['T'] digit 7 rfl
example := addBool_default (V := ℕ) [] [("log".toList, .bool true), ("no_log".toList, .negated 0)] "log".toList true rfl
/-- `--log --T x`. -/
example : update table "--".toList ["--log".toList, "--T".toList, ['x']] = .abort :=
  update_badValue table table_built "--".toList [.on "log".toList] on_valid ['T'] ⟨by decide, by decide, by decide, by decide⟩ digit 7 (by simp [table]) [['x']] (.inr (by decide))
/-- `--log --help`. -/
example : update table "--".toList ["--log".toList, "--help".toList] = .exit :=
  update_help table table_built "--".toList (by decide) [.on "log".toList] on_valid ['h', 'e', 'l', 'p'] (Or.inl rfl) []
/-- `--log T 5`. -/
example : update table "--".toList ["--log".toList, ['T'], ['5']] = .abort :=
  update_noPrefix table table_built "--".toList [.on "log".toList] on_valid ['T'] (by decide) (by decide) (by decide) [['5']]
/-- `--log --Dt 5`. -/
example : update table "--".toList ["--log".toList, "--Dt".toList, ['5']] = .abort :=
  update_unknown table table_built "--".toList [.on "log".toList] on_valid "Dt".toList ⟨by decide, by decide, by decide, by decide⟩ (by decide) [['5']]

end

/-! ## Lists, arrays, grids -/

example := CWR.cwr_complete 3 4 (by norm_num)
example := CWR.cwr_subscript_inverse 3 4 (by norm_num) [1, 0, 3]
example := Composite.initialTimeStep_spec 100 (-20) (by norm_num) (by rw [abs_le]; norm_num)
example := Distribution.grid_nodup (l := -1) (u := 1) (step := 1 / 4) (by norm_num)
example := Distribution.qFunction_eq (d := 10) 1 (by norm_num) 1 2
example := Autostop.stops_if_constant (ι := Fin 2) (1 / 100) (1 / 1000) (by norm_num) 3 (by norm_num) [![1, 2]] (by simp) ![3, 4]
example := ApplyGen.generate_matrix 3 (by norm_num)
example := Examples.xx_basic_partial 5 10 (by norm_num) (by norm_num) (by norm_num) (by norm_num) 2
example := Evolved.jc_conserves 1 2 3 4 5 1 2 1 3 (by norm_num)
/-- The stationary state of a resonantly driven atom. -/
example := Evolved.bloch_steady 1 0 one_pos 1 ![1 / 3, -2 / 3, 0] (by
  ext k; fin_cases k <;> simp [Evolved.blochDerivs] <;> norm_num)

end CppQED.LibraryCases
