import Verif.Props.Conservation
import Verif.Props.Counting
import Verif.Props.Energy
import Verif.Props.Interactions
import Verif.Props.InteractionsMLJC
import Verif.Props.InteractionsParticle
import Verif.Props.InteractionsPictures
import Verif.Props.InteractionsTwoStep
import Verif.Props.ModeAlternative
import Verif.Props.ModeNetwork
import Verif.Props.ModeNoExact
import Verif.Props.ModeTrace
import Verif.Props.Relaxation
import Verif.Props.Ring
import Verif.Props.ScriptPictures
import Verif.Props.ScriptSystems
import Verif.Props.Scripts
import Verif.Props.Spin
import Verif.Props.Thermal
import Verif.Props.UnravelCavity
import Verif.Props.UnravelConcrete

/-! Concrete systems which meet the hypotheses of the theorems about the elements, the interactions and the scripts: each line applies a theorem to parameters written out above. -/

open CppQED CppQED.ModeEl CppQED.Interactions

namespace CppQED.SystemCases

/-- A lossless, pumped and detuned mode. -/
noncomputable def closed : ModeEl.Pars := ⟨10, -1, 0, 0, 0, 0, 1 / 2⟩
/-- A lossy, pumped and detuned mode at zero temperature. -/
noncomputable def leaky : ModeEl.Pars := ⟨10, -1, 0, 0, 2, 0, 1⟩
/-- A lossy mode at zero temperature without a pump. -/
noncomputable def dark : ModeEl.Pars := ⟨6, 3, 0, 0, 1, 0, 0⟩
/-- A lossy, pumped mode at a finite temperature. -/
noncomputable def warm : ModeEl.Pars := ⟨8, -2, 0, 0, 1, 1 / 2, 1⟩
/-- A closed two-level atom, a decaying one, and one without a drive and with phase noise. -/
noncomputable def closedAtom : QbitEl.Pars := ⟨2, 0, 0, 1⟩
noncomputable def leakyAtom : QbitEl.Pars := ⟨2, 1, 0, 1⟩
noncomputable def noisyAtom : QbitEl.Pars := ⟨2, 1, 1 / 3, 0⟩
/-- A particle on 16 points moving in a pump of wave number one. -/
noncomputable def atom : ParticleEl.Pars := ⟨4, 1, 2, 1, .sin⟩
noncomputable def spin1 : SpinEl.Pars := ⟨2, 0, 1, 2, 3, 1⟩

/-! ## C53 -/

example := mode_unitary closed (by norm_num [closed]) (by norm_num [closed]) rfl le_rfl rfl rfl .ip
example := qbit_unitary closedAtom rfl .uip
example := jaynesCummings_unitary closedAtom closed (1 + Complex.I) .sch .sch Iff.rfl rfl (by norm_num [closed]) (by norm_num [closed]) rfl le_rfl rfl rfl
example := coupledModes_unitary .xxRWA closed { closed with cutoff := 4 } 2 .sch .sch rfl (by norm_num [closed]) (by norm_num [closed]) rfl le_rfl rfl rfl (by norm_num) (by norm_num) rfl le_rfl rfl rfl
example := along_unitary closed atom ⟨.cos, 2⟩ 3 1 .sch (fun _ => rfl) (by norm_num [closed]) (by norm_num [closed]) rfl le_rfl rfl rfl (by norm_num [atom]) (by norm_num [atom])

noncomputable def lambdaClosed : MultiEl.Pars := { MultiEl.lambda with gammas := [] }

theorem lambdaClosed_sane : lambdaClosed.Sane := ⟨by simp [lambdaClosed, MultiEl.lambda], by simp [lambdaClosed, MultiEl.lambda]⟩
theorem lambda_sane : MultiEl.lambda.Sane := ⟨by simp [MultiEl.lambda], by simp [MultiEl.lambda]⟩

example := multiLevel_unitary lambdaClosed lambdaClosed_sane (by norm_num [lambdaClosed, MultiEl.lambda]) rfl

/-! ## C163 -/

example := coupledModes_energy .xx closed { closed with cutoff := 4 } 2 .uip .ip rfl (by norm_num [closed]) (by norm_num [closed]) rfl le_rfl rfl rfl (by norm_num) (by norm_num) rfl le_rfl rfl rfl
example := along_energy closed atom ⟨.cos, 2⟩ 3 1 .sch (fun _ => rfl) (by norm_num [closed]) (by norm_num [closed]) rfl le_rfl rfl rfl (by norm_num [atom]) (by norm_num [atom])

/-! ## C165 -/

example := Counting.qbit_counts.{0} noisyAtom (by norm_num [noisyAtom]) rfl .ip
example := Counting.coupledModes_counts.{0} dark { dark with cutoff := 4 } 2 .ip .uip rfl (by norm_num [dark]) (by norm_num [dark]) (by norm_num [dark]) rfl rfl rfl rfl (by norm_num) (by norm_num) (by norm_num [dark]) rfl rfl rfl rfl
example := Counting.qbitsInCavity_counts.{0} 3 (by norm_num) (fun k => ⟨k, 1, 0, 0⟩) dark (fun k => k) (fun _ => .sch) .sch (fun _ => Iff.rfl) (fun _ => zero_le_one) (fun _ => rfl) (by norm_num [dark]) (by norm_num [dark]) (by norm_num [dark]) rfl rfl rfl rfl
example := Counting.jaynesCummings_phaseNoise_counts.{0} noisyAtom dark 2 .sch .uip (by simp [phaseNoisePicture, noisyAtom]) (by norm_num [noisyAtom]) (by norm_num [noisyAtom]) rfl (by norm_num [dark]) (by norm_num [dark]) (by norm_num [dark]) rfl rfl rfl rfl

/-! ## Spins and modes -/

example := generalDicke_simulates warm spin1 2 3 .uip (by simp) (some (SpinEl.liouvillean spin1)) (.inr rfl) (by norm_num [spin1, SpinEl.Pars.dimension, SpinEl.decideDimension]) (by norm_num [warm]) (by norm_num [warm]) (by norm_num [warm]) (by norm_num [warm]) rfl rfl
example := generalDickeSch_simulates warm spin1 2 3 none (.inl rfl) (by norm_num [spin1, SpinEl.Pars.dimension, SpinEl.decideDimension]) (by norm_num [warm]) (by norm_num [warm]) (by norm_num [warm]) (by norm_num [warm]) rfl rfl
example := jaynesCummingsSpin_simulates spin1 none (.inl rfl) (by norm_num [spin1, SpinEl.Pars.dimension, SpinEl.decideDimension]) warm 2 .ip (by simp) (by norm_num [warm]) (by norm_num [warm]) (by norm_num [warm]) (by norm_num [warm]) rfl rfl
example := jaynesCummingsSpinSch_simulates spin1 (some (SpinEl.liouvillean spin1)) (.inr rfl) (by norm_num [spin1, SpinEl.Pars.dimension, SpinEl.decideDimension]) warm 2 (by norm_num [warm]) (by norm_num [warm]) (by norm_num [warm]) (by norm_num [warm]) rfl rfl
example := SpinEl.spinHalf_trace ⟨1, 0, 1, 2, 3, 1⟩ rfl zero_le_one (fun i j => i + j)
example := SpinEl.spin_generates spin1 (some (SpinEl.liouvillean spin1)) (SpinEl.spinJ spin1) (.inr ⟨rfl, rfl⟩)

/-! ## Particles and modes -/

example := orthogonal_simulates warm atom 3 .uip .uip Iff.rfl (by norm_num [warm]) (by norm_num [warm]) (by norm_num [warm]) (by norm_num [warm]) rfl rfl (by norm_num [atom]) (by norm_num [atom]) (by norm_num [atom]) (by norm_num [atom])
example := orthogonal_throws (p := ⟨4, 1, false⟩) (modePtr warm .sch) ⟨.sin, 1⟩ 2 (-3) (by norm_num) [0, 1]
example := along_exact_wrong (modePtr warm .sch) (by norm_num [warm, modePtr]) (by norm_num [warm, modePtr]) ⟨4, 1, true⟩ (by norm_num) rfl (by norm_num) ⟨.cos, 1⟩ rfl (by norm_num) (by norm_num) 3 (by norm_num) [0, 1]
example := alongPumped_special_couples (p := ⟨4, 1, false⟩) (modePtr warm .sch) (by norm_num [warm, modePtr]) (by norm_num [warm, modePtr]) (by norm_num) ⟨.cos, 2⟩ ⟨.sin, -2⟩ 3 1 (by norm_num) rfl rfl (by norm_num) [0, 1]
example := twoModes_throws (p := ⟨4, 1, false⟩) (modePtr warm .sch) (modePtr leaky .sch) ⟨.cos, 2⟩ ⟨.sin, 1⟩ 2 (-3) 0 (by norm_num) [0, 1, 2]
example := mul_multiplication 4 ⟨.cos, 2⟩ ⟨.plus, 1⟩ _ _ (.inl rfl) (.inr rfl) 3 5 (by norm_num) (by norm_num)
example := coupledModesNX_wrong (modePtr warm .sch) ⟨5, some (2, 0)⟩ (by norm_num [warm, modePtr]) (by norm_num [warm, modePtr]) (by norm_num) (by norm_num) 3 (by norm_num) 2 rfl (by norm_num) [0, 1]
example := jaynesCummings_pictures_partial leakyAtom warm 2 .ip .uip .sch .sch (by simp) Iff.rfl (by norm_num [leakyAtom]) (by norm_num [warm]) (by norm_num [warm]) (by norm_num [warm]) (by norm_num [warm]) rfl rfl
example := mljc_exact_throws [0, 1] (modePtr warm .sch) (by norm_num [warm, modePtr]) (by norm_num [warm, modePtr]) [(0, 1, 2)] (by simp)

/-! ## Modes -/

example := alternative_zero leaky (by norm_num [leaky]) (by norm_num [leaky]) (by norm_num [leaky]) rfl rfl rfl .sch
example := makePumpedLossy_trace_zeroT leaky (by norm_num [leaky]) (by norm_num [leaky]) (by norm_num [leaky]) rfl rfl rfl .uip (by simp)
example := kerr_pictures_differ ⟨5, 1, 1, 0, 0, 0, 0⟩ (by norm_num) (by norm_num) (by norm_num) (by norm_num)
example := noExact_rate_partial leaky (by norm_num [leaky]) (by norm_num [leaky])

/-! ## C116 and C154 -/

example := Unravel.mode_unravels.{0, 0} leaky (by norm_num [leaky]) (by norm_num [leaky]) (by norm_num [leaky]) rfl rfl rfl .ip
example := Unravel.multiLevel_unravels.{0, 0} MultiEl.lambda lambda_sane (by simp [MultiEl.lambda])
example := Unravel.multiLevelDiffusive_unravels.{0, 0} MultiEl.lambda lambda_sane (by simp [MultiEl.lambda]) [1, 0, 2] (by simp)
example := Unravel.qbitPhaseNoise_unravels.{0, 0} noisyAtom (by norm_num [noisyAtom]) (by norm_num [noisyAtom]) .uip
example := Unravel.jaynesCummings_phaseNoise_unravels.{0, 0} noisyAtom leaky 2 .sch .uip (by simp [phaseNoisePicture, noisyAtom]) (by norm_num [noisyAtom]) (by norm_num [noisyAtom]) (by norm_num [leaky]) (by norm_num [leaky]) (by norm_num [leaky]) rfl rfl rfl
example := Unravel.qbitsInCavity_unravels.{0, 0} 3 (by norm_num) (fun k => ⟨k, 1, 0, 2⟩) leaky (fun k => k) (fun _ => .sch) .sch (fun _ => Iff.rfl) (fun _ => zero_le_one) (by norm_num [leaky]) (by norm_num [leaky]) (by norm_num [leaky]) rfl rfl rfl
example := Relax.mode_decay.{0} dark (by norm_num [dark]) (by norm_num [dark]) (by norm_num [dark]) rfl rfl rfl rfl .uip (.inl (by simp))
example := Relax.mode_to_vacuum.{0} dark (by norm_num [dark]) (by norm_num [dark]) (by norm_num [dark]) rfl rfl rfl rfl .sch (.inl (by simp))
example := Relax.qbit_decay.{0} noisyAtom (by norm_num [noisyAtom]) rfl .sch (.inl (by simp))
example := Evolved.qbit_agrees.{0} leakyAtom (by norm_num [leakyAtom]) .sch (.inl (by simp)) (1 / 2) (by norm_num [Complex.normSq_apply]) 3 (by norm_num)

/-! ## Scripts -/

theorem warm_usable : ScriptSys.Usable warm := ⟨by norm_num [warm], by norm_num [warm], by norm_num [warm], by norm_num [warm], rfl, rfl⟩
theorem leaky_usable : ScriptSys.Usable leaky := ⟨by norm_num [leaky], by norm_num [leaky], by norm_num [leaky], by norm_num [leaky], rfl, rfl⟩

example := ScriptSys.ring_general_simulates atom (by norm_num [atom]) warm leaky warm_usable leaky_usable ⟨2, 1, .plus⟩ ⟨3, 2, .minus⟩ (by norm_num) (by norm_num [atom]) (by norm_num [atom]) .uip (.inr ⟨by norm_num, by norm_num, rfl, rfl⟩) (by norm_num)
example := ScriptSys.conf4_simulates_nothing warm warm_usable (by norm_num [warm]) atom (by norm_num [atom]) (by norm_num [atom]) ⟨2, 1, .cos⟩ rfl (by norm_num) (by norm_num [atom]) (by norm_num) 1 .uip (by simp)
example := ScriptSys.pictures_agree_partial warm warm_usable atom (by norm_num [atom]) ⟨2, 1, .plus⟩ (by norm_num) (by norm_num [atom]) 1 rfl (by norm_num [atom]) (.inl (by norm_num [warm])) (by norm_num) .sch .ip
example := ScriptSys.conf1_simulates warm warm_usable atom (by norm_num [atom]) (by norm_num [atom]) ⟨2, 1, .cos⟩ 0 .ip (by norm_num [atom]) (by norm_num [atom])
example := ScriptSys.conf3_general_simulates warm warm_usable atom (by norm_num [atom]) ⟨2, 2, .cos⟩ (by norm_num [atom]) (by norm_num [atom]) (by norm_num [atom]) 0 .sch (.inl rfl) (by norm_num [atom])
example := ScriptSys.exits 5 warm warm_usable atom (by norm_num [atom]) ⟨2, 1, .cos⟩ 0 .ip (.inl (by norm_num))
example := ScriptSys.sign_throws 2 (.inr (.inl rfl)) warm warm_usable atom (by norm_num [atom]) ⟨-2, 1, .cos⟩ 1 (by norm_num) .sch (by norm_num [atom])
example := network_master 2 (by norm_num) (fun _ => warm) (fun _ => .sch) (fun _ _ => ⟨by norm_num [warm], by norm_num [warm], by norm_num [warm], by norm_num [warm], rfl, rfl⟩) [⟨0, 1, .xxRWA, 3⟩] (by simp [Link.Ok, Coupling.admits]) (fun _ _ => .inl (by simp)) (by simp [Spec.modeJ, warm, List.range_succ])

end CppQED.SystemCases
