import Verif.Props.MultiIndex
import Verif.Props.Slice
import Verif.Props.Combinatorics
import Verif.Props.CMatrix
import Verif.Props.Deflate
import Verif.Props.QuantumData
import Verif.Props.PartialTrace
import Verif.Props.Negativity
import Verif.Props.FFT
import Verif.Props.Tridiagonal
import Verif.Props.Sigma
import Verif.Props.Trajectory
import Verif.Props.StateFile
import Verif.Props.Autostop
import Verif.Props.ODE
import Verif.Props.MCWF
import Verif.Props.Master
import Verif.Props.Ensemble
import Verif.Props.Composite
import Verif.Props.CompositeDynamics
import Verif.Props.CompositeMake
import Verif.Props.CompositeExample
import Verif.Props.CompositeCases
import Verif.Props.TrajectoryCases
import Verif.Props.EvolutionCases
import Verif.Props.SystemCases
import Verif.Props.LibraryCases
import Verif.Props.Element
import Verif.Props.Mode
import Verif.Props.ModeDynamics
import Verif.Props.ModeTrace
import Verif.Props.ModeAverages
import Verif.Props.Qbit
import Verif.Props.Spin
import Verif.Props.MultiLevel
import Verif.Props.Correlations
import Verif.Props.Particle
import Verif.Props.ParticleDynamics
import Verif.Props.CompositePicture
import Verif.Props.Interactions
import Verif.Props.InteractionsMLJC
import Verif.Props.InteractionsParticle
import Verif.Props.InteractionsTwoStep
import Verif.Props.InteractionsPictures
import Verif.Props.Conservation
import Verif.Props.Pars
import Verif.Props.ParsGroups
import Verif.Props.Commenting
import Verif.Props.TextIO
import Verif.Props.DDHO
import Verif.Props.MathExtensions
import Verif.Props.Distribution
import Verif.Props.Wigner
import Verif.Props.CompositeMaster
import Verif.Props.InteractionsMaster
import Verif.Props.BinaryComposite
import Verif.Props.CompositeTrace
import Verif.Props.ModeNetwork
import Verif.Model.ModeVariants
import Verif.Props.HomodynedMode
import Verif.Props.BichromaticMode
import Verif.Props.ModeAlternative
import Verif.Props.ModeNoExact
import Verif.Props.InteractionsPhaseNoise
import Verif.Props.AveragingUtils
import Verif.Props.DensityStreamer
import Verif.Props.MutualInformation
import Verif.Props.ParticleInit
import Verif.Model.Evolved
import Verif.Props.Evolved
import Verif.Model.MCWFLog
import Verif.Lemmas.MCWFLog
import Verif.Props.MCWFLog
import Verif.Model.Aliasing
import Verif.Lemmas.Aliasing
import Verif.Spec.ValueSemantics
import Verif.Props.Aliasing
import Verif.Model.MCWFRun
import Verif.Model.MCWFSystem
import Verif.Spec.Unravelling
import Verif.Lemmas.UnravelEstimate
import Verif.Lemmas.UnravelProbability
import Verif.Lemmas.UnravelMaps
import Verif.Lemmas.Unravelling
import Verif.Lemmas.UnravelPicture
import Verif.Lemmas.UnravelFinish
import Verif.Lemmas.UnravelExists
import Verif.Props.Unravelling
import Verif.Props.UnravelElements
import Verif.Props.UnravelConcrete
import Verif.Props.UnravelDecay
import Verif.Model.MCWFComposite
import Verif.Lemmas.UnravelComposite
import Verif.Props.UnravelComposite
import Verif.Props.UnravelCavity
import Verif.Lemmas.EnsembleRate
import Verif.Spec.EnsembleRate
import Verif.Props.EnsembleRate
import Verif.Model.MasterRun
import Verif.Spec.MasterRun
import Verif.Lemmas.MasterGlobal
import Verif.Props.MasterGlobal
import Verif.Model.Simulated
import Verif.Spec.Simulated
import Verif.Lemmas.Simulated
import Verif.Props.Simulated
import Verif.Spec.Scripts
import Verif.Props.Scripts
import Verif.Lemmas.Positivity
import Verif.Props.Positivity
import Verif.Spec.MasterNormalised
import Verif.Lemmas.MasterNormalised
import Verif.Props.MasterNormalised
import Verif.Props.Storage
import Verif.Props.MatrixSystem
import Verif.Model.ScriptSystems
import Verif.Spec.ScriptSystems
import Verif.Lemmas.ScriptSystems
import Verif.Lemmas.BinaryConverse
import Verif.Lemmas.Tensor3
import Verif.Props.ScriptSystems
import Verif.Props.ScriptPictures
import Verif.Props.Ring
import Verif.Props.RingEvolved
import Verif.Props.IdenticalParticles
import Verif.Props.ScriptElements
import Verif.Props.FormDouble
import Verif.Model.PyState
import Verif.Spec.PyState
import Verif.Lemmas.PyState
import Verif.Props.PyState
import Verif.Props.PyActwith
import Verif.Props.PyFFT
import Verif.Model.PyInit
import Verif.Props.PyInit
import Verif.Model.PyIO
import Verif.Props.PyIO
import Verif.Model.PyText
import Verif.Lemmas.PyText
import Verif.Props.PyText
import Verif.Model.ExampleMode
import Verif.Lemmas.ElementScaled
import Verif.Spec.ExampleMode
import Verif.Props.ExampleMode
import Verif.Spec.Independence
import Verif.Props.Independence
import Verif.Model.CavityScripts
import Verif.Spec.CavityScripts
import Verif.Props.CavityScripts
import Verif.Model.ParticleScripts
import Verif.Spec.ParticleScripts
import Verif.Props.ParticleScripts
import Verif.Spec.Relaxation
import Verif.Props.Relaxation
import Verif.Props.PhotonStatistics
import Verif.Spec.RateEquations
import Verif.Props.RateEquations
import Verif.Spec.SingleExcitation
import Verif.Props.SingleExcitation
import Verif.Spec.PhotonNetwork
import Verif.Props.PhotonNetwork
import Verif.Props.Thermal
import Verif.Props.TestDriver
import Verif.Props.TestVerifier
import Verif.Props.TestComparer
import Verif.Props.Energy
import Verif.Props.ApplyGen
import Verif.Spec.Rabi
import Verif.Props.Rabi
import Verif.Props.FourModes
import Verif.Spec.Reduced
import Verif.Lemmas.Reduced
import Verif.Props.Uncoupled
import Verif.Spec.Counting
import Verif.Lemmas.Counting
import Verif.Props.Counting
import Verif.Model.StateFileOpen
import Verif.Spec.StateFileOpen
import Verif.Lemmas.StateFileOpen
import Verif.Props.StateFileOpen
import Verif.Props.Revival
import Verif.Model.FunctionComparer
import Verif.Spec.FunctionComparer
import Verif.Props.FunctionComparer
import Verif.Model.TinyVectorIO
import Verif.Spec.TinyVectorIO
import Verif.Props.TinyVectorIO
import Verif.Props.VectorParameters
import Verif.Model.MatrixSlices
import Verif.Props.MatrixSlices
import Verif.Model.ExpValues
import Verif.Spec.ExpValues
import Verif.Props.ExpValues
import Verif.Model.FuzzyDouble
import Verif.Props.FuzzyDouble
import Verif.Model.TinyOfArrays
import Verif.Spec.TinyOfArrays
import Verif.Props.TinyOfArrays
