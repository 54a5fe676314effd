# Formal model of vukics/cppqed in Lean 4

## 1. What this is

`/verif/lean` is a Lake project (Lean 4.33.0, Mathlib) that contains a hand-written formal model of parts of
C++QED (`/repo`) and kernel-checked theorems about the model. `properties.jsonl` lists the semantic properties
(C01, C02, ...). `MANIFEST.json` maps each property to the theorems proved for it.
`seeded/LOG.jsonl` records the seeded-bug experiments.

Layout of `lean/Verif/`:

* `Model/*.lean`  – the model. Each definition cites the file and lines of `/repo` it models and says what is simplified.
* `Spec/*.lean`   – small, independent specifications used in theorem statements (matrices, lexicographic order, ...).
* `Lemmas/*.lean` – helper lemmas.
* `Props/*.lean`  – the property theorems, one file per area, with `example`s showing that concrete cases meet the hypotheses, beside the theorems or collected in `Props/*Cases.lean`.

## 2. Trusted base

* Lean's kernel (vcheck also replays every module in it) and the axioms `propext`, `Classical.choice`, `Quot.sound`, nothing
  else: no `sorry`, no `native_decide`, no `bv_decide`, no axioms of our own. `axioms.txt` has the output of `#print axioms`
  for every theorem named in `MANIFEST.json`.
* The reading of the C++ code: the model is written by hand from the text of `/repo`; nothing is compiled or run. Every
  definition cites the lines it models and states its simplifications.
* Numerics: `double` / `dcomp` are ℝ / ℂ. Rounding, overflow and NaN are not modelled. `int`/`size_t` are ℕ/ℤ unless the
  property is about wrap-around (`BinarySystem`'s jump numbers: the wrap-around is modelled).
* Library functions are their documented mathematical functions: GSL's FFT, Boost's factorial and Laguerre polynomial,
  Eigen's linear solver, FLENS' eigenvalues.
* ODE steppers (Boost.odeint, GSL) are oracles; the theorems hold for every oracle, or state the contract as a hypothesis.
  The continuous dynamics (the derivative handed to the stepper) is modelled exactly, and theorems about pictures speak about
  derivatives of state vectors (`HasDerivAt`), not about the discretised integration.
* blitz++ arrays are functions from multi-indices (lists of ℕ) with explicit extents. Shared storage of whole arrays is modelled
  in Model/Aliasing; elsewhere memory, aliasing and storage order are
  modelled only where the code depends on them (`inflate`/`deflate`, transposed views, slices writing through to the array).
* Boost.Serialization archives are abstract byte strings with a round-trip contract; the framing that the code adds is modelled.
* Random engines are abstract streams of numbers; `std::seed_seq`-like internals and the quality of randomness are outside.
* Template metaprogramming (compile-time lists of axes) is modelled by run-time lists; ill-formed instantiations appear as
  explicit outcomes where a property speaks about them (C58).
* Not modelled at all: threads, signals, the file system below whole `write`s, performance, memory safety, the compilation of Python modules on demand.
* Python: numpy arrays are functions from multi-indices with a shape (C137/C138: a memory, strides and an element type); numpy's
  `sum`, `einsum`, `fft`, `diag`, `loadtxt` and `split` are modelled after their documentation, exceptions as the outcome `throw`.

### Which code is modelled

| directory | modelled | not modelled |
|---|---|---|
| CPPQEDutils | MultiIndexIterator, SliceIterator (transpose, index, full range), VectorFromMatrixSliceIterator, Combinatorics, CMatrix, ComplexArrayExtensions, BlitzArrayExtensions (views used), ArrayBase streaming order, MathExtensions, DrivenDampedHarmonicOscillator, FFT, KeyPrinter, FormDouble, Pars/BooleanNegatedProxy, CommentingStream, ContainerIO (one element type), IO_Manip (vectors), ODE/ODE_GSL (control logic), Random (stream numbering), StochasticTrajectory (Ensemble), Simulated, Trajectory (advance, run, state files, their compression, restart, autostop), FuzzyDouble, BlitzTinyOfArrays | ContainerIO custom delimiters, Conversions, SharedMemoryAllocator, Profiling, Version |
| CPPQEDcore/quantumdata | StateVector, DensityOperator, LazyDensityOperator (+FFT), DimensionsBookkeeper, ArrayBase, EntanglementMeasures (negPT, entropy, purity, mutual information), DistributionFunctions | NonOrthogonal*, Transformation, wignerFunctionOld |
| CPPQEDcore/quantumoperator | Tridiagonal (all arities), the generator of specialised applications, TridiagonalHamiltonian, Sigma | printing of Tridiagonals |
| CPPQEDcore/structure | Exact, FreeExact, Hamiltonian, Liouvillean, ElementLiouvillean (all variants), ElementAveraged, Averaged, MatrixOfHamiltonian, TimeDependence, DynamicsBase (highest frequency) | parameter printing of DynamicsBase |
| CPPQEDcore/composites | BinarySystem, Composite (complete dynamics, averages, dispatch, construction) | parameter streaming |
| CPPQEDcore/quantumtrajectory | MCWF_Trajectory (step, jumps, step-back), the loggers, Master (derivative, step), EvolutionMethod, DensityOperatorStreamer, TimeAveragingMCWF_Trajectory (averaging), Evolution_ (how the initial state is handed over) | ProjectingMCWF_Trajectory |
| CPPQEDelements/frees | Mode (all classes), Qbit, Spin, MultiLevel, PumpedTwoLevelAtom, TimeIndependentMatrixHamiltonian, Particle (dynamics, averages, initial conditions), the names registered by the parameter classes | – |
| CPPQEDelements/interactions | JaynesCummings, CoupledModes, GeneralDicke, MLJC, ParticleAlongCavity, ParticleOrthogonalToCavity, ParticleTwoModes, ModeCorrelations, QbitModeCorrelations, IdenticalParticles (which does nothing), CustomElementsExample/MomentumCorrelation | – |
| CPPQEDelements/utils | ModeFunction, AveragingUtils (Collecting, ReducedDensityOperator, Transferring), ParticleInitialCondition | – |
| CPPQEDscripts | right-hand sides and initial values of PTLA_Evolved(HL), PumpedLossyMode_Evolved, QbitMode_Evolved (and of the example HarmonicOscillatorComplexBlitz); QbitMode_Matrix; the systems of 1particle1mode, SingleParticle, PTLA_C++QED, Ring, 2particles1mode, tutorialCompositeMultiparticle, QbitMode_C++QED, tutorialBinary, Optomechanics, Raman, CavityRaman, FourModes, tutorialCompositeRing, CustomScriptsExample/6qbits and 2ParticlesRingCavitySine; Ring_Evolved | everything else (Ca40InCavityWithPhonons uses types which do not exist any more) |
| CPPQEDcore/examples | ExampleMode, ExampleModeImpl, ExampleInteraction (both designs) | CoherentElementTest, cpcPaperExamples |
| cpypyqed | io.cc, blitz2numpy.h, tools/quantumstate.py, initialconditions.py, operators.py, io.py, expvalues.py, utils.py | `__init__.py` (selection of the build), passthrough.py, `adjust` |
| Testing | testdriver.py (configuration, runs, continuation, verification, comparisons of trajectories with each other, with functions, and of states, tests of compilation) | plotting, the C++ tests |

## 3. Per-property plan

| id | what is modelled | how it is proved |
|----|------------------|------------------|
| C01 | `MultiIndexIterator` increment as an odometer on `List ℤ` | induction on rank, refinement to the lexicographic enumeration |
| C02 | `filterOut`, `Transposer`, `Indexer` on axis lists and index lists | bijection between full indices and (slice, position) pairs |
| C03 | `for_each(fullRange<V>(psi), f)` | pointwise characterisation from C02, commutation, product states |
| C04 | `CWR_Dir` recursion | induction; count = Mathlib's `Nat.multichoose` |
| C05 | the double loop on an `n x n` matrix as a fold of single-entry updates | loop invariant |
| C06 | conjugate + transposed view | direct, all ranks |
| C07 | `doDirect` | direct on index lists |
| C08 | `deflate`, `inflate` with the running index | closed form of the running index, round trip |
| C09 | `index`, `operator()`, `trace_v`, `dyad` | pointwise; negation for `trace` of unnormalised vectors |
| C10 | `partialTrace`, `reduce` on bipartite index types | finite sums, `Matrix.PosSemidef` |
| C11 | index swap, `negPT` | involution; spectral theorem for Hermitian matrices |
| C12 | `purity` | sums; Cauchy-Schwarz |
| C13 | `norm`, `renorm` | algebra |
| C14 | `ffTransformCV` with an abstract DFT defined by its formula | DFT orthogonality, permutation/sign algebra |
| C15 | `apply` over base-3 digits and ranges | induction on rank |
| C16 | `directDiagonals`, product constructor | matrix/Kronecker |
| C17 | `hermitianConjugate`, `operator+=`, `operator*=` | matrix identities; negation for the frequency check |
| C18 | `furnishWithFreqs`, `propagate` | exponentials, history independence; negation for products |
| C19 | `Sigma`, `partialProject` | pointwise |
| C20 | `calculateMatrix` | linearity |
| C21 | jump loops, superoperator loops, rates | loop unrolling by induction, sums |
| C22 | `Master` derivative for each element | trace of `M + M† + Σ J rho J†`; negation for the spin |
| C23 | `Exact::updateU`, `Hamiltonian`, `make` | diagonal exponentials; negation for Kerr |
| C24 | `average_v`, `process_v` | traces; variance non-negativity by Cauchy-Schwarz |
| C25 | `ElementLiouvilleanDiffusive` | negation with witness, exact discrepancy formula |
| C26 | `mfComposition`, `mfNKX` as trigonometric polynomials | case analysis, `Complex.exp` |
| C27 | `BinarySystem` index arithmetic with 64-bit wrap-around | case analysis; negation with witness |
| C28 | `Composite` dispatch fold | induction over components |
| C29 | range bookkeeping folds | induction |
| C30 | `KeyPrinter` numbering | induction |
| C31 | `addContribution` fold | induction, linearity |
| C32 | `fillFrees` | induction, iff statement |
| C33 | `highestFrequency` | max lemmas; negation for Composite |
| C34 | `advance` as a relation over step histories | invariant |
| C35-C37 | `trajectory::run` as a state machine over an abstract trajectory | invariants over iterations |
| C38 | framing on byte lists | round trip by induction; truncation analysis |
| C39 | `Base::step` around an oracle stepper | invariant; negation for the tolerance order |
| C40-C41 | `MCWF_Trajectory::step` pieces | real arithmetic, measure of intervals |
| C42 | `Master::step` | matrix algebra |
| C43-C44 | `Ensemble`, stream numbering | sums, positivity; injectivity |
| C45 | `FreeExact` cache | invariant; negation for the uninitialised first use |
| C46 | `AutostopHandlerGeneric` | invariant over call histories |
| C47 | `Table`, `update` | fold over tokens |
| C48 | `CommentingMachine` | automaton, chunk independence |
| C49 | `qFunction`, `scanFunction` | positivity of a quadratic form |
| C50 | the three branches of `make` | derivatives in Mathlib |
| C51 | `fock`, `coherent`, `fact` | direct |
| C52 | enum I/O, container I/O | finite case analysis, induction |
| C53 | Hamiltonian actions | anti-Hermiticity of sums |
| C54 | `DimensionsBookkeeper` | invariant |
| C55 | `entropy` over the eigenvalues | `Real.negMulLog`, Jensen |
| C56-C58, C60-C67, C70-C72, C79, C80, C82 | the parts of C09, C17-C19, C22, C23, C25, C27, C33, C35-C41, C45, C77, C78, C81 that the code violates | negation with a concrete witness, and the strongest true part as a `_partial` theorem |
| C59 | crash points of a run: prefixes of its write history | invariant over histories |
| C68 | `actWithU` folds of Binary/Composite | commuting diagonal actions |
| C69 | `ElementLiouvillean` dispatch | case analysis on the number |
| C73-C75 | spin, multilevel and particle elements with their makers | refinement to a textbook Hamiltonian: the physical vector recovered from the integrated one has the right derivative |
| C76 | the pictures of a composite | the same, over lists of parts |
| C77, C78 | the interaction elements with all admissible free elements | operator identities per element, then the generic composite theorem |
| C81 | `wignerFunction` | polar coordinates |
| C83 | composites as systems of `Master`, with an arbitrary order of storage | the generic theorem on pictures, on the sum of the extended operators; trace from the algebra of extended operators |
| C84 | `BinarySystem` against `Composite` | pointwise equality of every function, then of the Master step |
| C85 | the same systems between jumps | derivative of the norm |
| C86, C87 | `HomodynedMode`: jump loops, the term subtracted in the constructor, the maker | loops as matrices, generator; expansion of the average generator; necessary and sufficient condition |
| C88, C89 | `BichromaticMode`: two furnished operators, exact part, the maker | conjugation of both operators with the exact propagator; necessary and sufficient condition on t0 |
| C90, C91 | `PumpedLossyModeAlternative` | generator as in C20; diagonal elements |
| C92, C93 | `PumpedLossyModeIP_NoExact`: Hamiltonian, jump, rate, averages | conjugation with the free evolution from time zero; states with one photon |
| C94, C95 | `ReducedDensityOperator`, `ReducedDensityOperatorNegativity`: labels, averages, processing; blitz's `resize` with arbitrary new contents | induction over the loops; round trip with `deflate`; independence of the state for the violation |
| C96 | `averagingUtils::Collecting`; `Transferring` only forwards and is not modelled | induction over the members with the bounds of the ranges |
| C97 | `DensityOperatorStreamer` | case distinction of the switches over arbitrary system columns |
| C98 | time averaging of `TimeAveragingMCWF_Trajectory` (legacy, not included anywhere) | invariant by induction over histories |
| C99 | `mutualInformation` on top of `reduce` and `entropy` | subadditivity: mixing by the unitary between eigenbases (Jensen, strict concavity) and the Gibbs inequality; `AB`/`BA` for pure states |
| C100 | `purityOfPartialTrace` | spectral theorem, Cauchy-Schwarz |
| C101 | `wavePacket`, `hoState`, `init` on the grids of the particle | unitarity of the transformation; differential equation, decay and zeros of the Hermite functions by induction on the order |
| C102 | `coherent` and the overloads for the pumped particle | second derivative of the optical potential; Gaussians proportional in three points of the grid are equal. Violated, see section 4 |
| C103 | right-hand side and initial values of PTLA_Evolved, PTLA_EvolvedHL | the elements of `lindblad` for the pumped atom against the script, `HasDerivAt`; uniqueness of the solutions of Lipschitz equations |
| C104 | right-hand side of PumpedLossyMode_Evolved | Heisenberg picture of `a` with the truncated ladder operators (`aa†=n+1-d|top><top|`), derivative of the quotient by the trace; mean-value inequality in the rotating damped frame |
| C105 | the same with two pumps | evaluated at half a rotation. Violated, see section 4 |
| C106 | right-hand side of QbitMode_Evolved | matrix elements between the states of one excitation. Violated, see section 4 |
| C107 | MCWF step with all calls of the logger (MCWF_TrajectoryLogger) | induction on the steps: the recorded instants increase strictly, hence the records agree entry by entry |
| C108 | as C107, with the lines written | projection to the trajectory without logging; relation between runs at different levels preserved by each call of the logger |
| C109 | `EnsembleLogger::stream` up to the call of the accumulator | algebra of lists, bounds of the integer quotient |
| C110 | conditions on `logLevel_` | as C108. Violated, see section 4 |
| C111 | memory of blocks, objects refer to blocks; `MCWF_Trajectory::step`, `Master::step`, constructors, `stateIO` on the memory (Model/Aliasing) | each operation on the memory shows the operation on values (`Model/MCWF`, `Model/Master`) in the same block and leaves the other blocks alone; induction on the history |
| C112 | copy/move constructors, assignments, `reference` | invariant: usable variables are in different blocks; induction on the program |
| C113 | as C111, with `stateIO` rebinding `psi_` | as C111. Violated after a loading, see section 4 |
| C114 | `makeEnsemble` with reallocations of the vector; interleaved histories | invariant: members in different, new blocks; induction on the interleaving |
| C115 | `runTo` (the loop of `run` over `advance` over `step`) on the model of C41–C45; probability spaces from Mathlib | one-step error of second order (jump probabilities integrated over the uniform number), induction on the steps with the random numbers consumed so far, semigroup of the Lindblad generator; strong law of large numbers for the ensemble |
| C116 | the elements of C15–C24 as systems of the trajectory, with their rates | the interaction picture has the flow `exp(W(t−t0))exp((V−W)(t−t0))`; the elements are such systems; exact systems arrive by induction |
| C117 | the composites and binary systems of C27–C36 as systems of the trajectory, with their rates (the `average` of the Liouvilleans on the state vector) | composites are linear systems in the sum of the interaction pictures; rates are expectation values of `J†J` by the partial trace; conservation extends from the elements to the composite; then C116. An exact stepper shows that the hypotheses can be met for all these systems |
| C118 | the ensemble's average (C43) of trajectories with independent streams | the final dyads are measurable functions of the random numbers; variance of a mean of independent bounded variables; Markov's inequality; systematic part from C116–C117 |
| C119 | Master trajectories run by the driver: constructor, `advance` and `run` over the step of C12 (`Model/MasterRun`) | one step is a step of the exact semigroup (transformed to the interaction picture) plus the error of the stepper; hermitisation and renormalisation do not increase the error by more than a factor; discrete Gronwall argument over the steps; systems from C83; comparison through the solution with C116–C118 |
| C120 | `Simulated` (constructor, step, row, key, state file) and its run by the driver (`Model/Simulated`) | invariants of the loops; the step of C39 against the flow of the equation; Gronwall's inequality between trajectories, discrete accumulation over the steps; linear inhomogeneous equations have flows by variation of constants; an exact stepper shows that the hypotheses can be met |
| C121 | the scripts as `Simulated` trajectories with the right-hand sides of C103–C105, against the Master trajectories of C119 | C120 and C119 applied to the exact solution of the Master equation, whose Bloch vector and mean amplitude satisfy the script's equations up to the neglected terms; integrated by an explicit damped bound |
| C122 | the Master trajectories of C119, the ensemble's average of C118 | the semigroup is the limit of powers of the maps ρ ↦ (1+hA)ρ(1+hA)† + hΣJρJ†, each of which is positive; positive semidefinite matrices are closed; then C119 |
| C123 | the Master trajectories of C119 without conservation of the trace | invariant: up to a positive factor the trajectory is the solution (the error grows linearly, as the equation is linear); the trace of the solution decreases at most exponentially (positivity, C122), which bounds the factor from below |
| C124 | a heap of shared blocks, objects with dimensions, statements (also used for C111–C113) | `std::swap` executed symbolically: the exact outcome, which is not an exchange; a copied temporary does exchange |
| C125 | `Transferring` and the script QbitMode_Matrix in the same model, any in-place history | sharing persists through in-place histories (single trajectories); frame property: nothing that avoids the variables changes them (other methods, resumed runs) |
| C126 | `calculateMatrix` and `TimeIndependentMatrixHamiltonian` composed, as in QbitMode_Matrix | C20 at each column; the right-hand side of a binary system in the Schrödinger picture from C77 by uniqueness of derivatives |
| C127 | `1particle1mode.cc`: the four configurations, the shift of the detuning, the exits (Model/ScriptSystems.lean) | C77 and C78 for the constituents; the shift compensates for the average left out of the light shift |
| C128 | the same in the interaction pictures | the product of the number operator and the cosine loses the frequencies (C57, C80), so that the right-hand side in the picture is not a rotating Hamiltonian; a system that simulates a Hamiltonian determines its right-hand side (Lemmas/BinaryConverse.lean) |
| C129 | `Ring.cc`: the composite of a particle and two modes with three interactions | C79 and the extension of operators to three constituents (Lemmas/Tensor3.lean) |
| C130 | the right-hand side of `Ring_Evolved.cc` | commutators of the truncated ladder operators on the product of two modes; Grönwall |
| C131 | the same with the wave numbers | derivative of the phases in the position of the particle |
| C132 | `2particles1mode.cc`: a composite of a mode and one particle instance taken twice | the Hamiltonian commutes with the exchange; uniqueness of the solution of linear equations; jumps act on the mode only; induction on the history |
| C133 | `SingleParticle.cc`: `make` on the parameters of a pumped particle | an element determines its Hamiltonian (derivative of a straight line through any vector); entry (2k, 0) of the potential |
| C134 | `PTLA_C++QED.cc`: the phase-noisy qbit or `PumpedTwoLevelAtomSch` | both Master equations computed; the difference is 2 gammaParallel sigma_z rho sigma_z, compared on two matrices |
| C135 | `FormDouble`, the conversion `%g` of the C library (digits by rounding to nearest, even on ties), the rows of `trajectory::stream` and `Simulated` as text | length of the text of any double against the width; induction over the row with a reader that splits at white space; value of a decimal text by induction on its digits |
| C136 | the same | a number of seven characters for every negative precision |
| C137 | records of state files as token lists behind an abstract archive; `read` of io.cc | induction on the snapshots; files of other types and ranks by cases |
| C138 | numpy arrays with memory and strides, `write`, loading into a trajectory | exact contents of the file for every array; transposed arrays, other element types, ensembles |
| C139 | quantumstate.py on arrays of any rank | refinement to tensor products and partial sums; orthogonality of characters for the Fourier transform |
| C140 | the same | exact value returned, compared with the documented one |
| C141 | initialconditions.py, operators.py | equality with the model of the C++ functions |
| C142 | the same | exact outcome outside the range |
| C143 | tools/io.py on texts, with the texts of C102/C135 | induction on the lines of the output |
| C144 | the same | exact outcome on the files that fail |
| C145 | the modes and the interaction of the guide (CPPQEDcore/examples) as elements, in the framework of C60 and C79 | the tridiagonal algebra, the commutation of the exact part with the jumps, trace of Kronecker products |
| C146 | the same | exact Hamiltonian and Master equation simulated; uniqueness of the coupled Hamiltonian; uniqueness of derivatives |
| C147 | composites whose interactions have no Hamiltonian; `FourModes.cc` (Model/CavityScripts.lean) | the sum of the extended Hamiltonians acts on a product by the product rule; uniqueness of the solution of linear equations; jumps act on one factor |
| C148 | the systems of the scripts of atoms and cavities, 6qbits for any number of qbits | C77, C79 for the constituents |
| C149 | the same in the other pictures | a coupling which does not rotate simulates a Hamiltonian exactly if it connects states of the same frequency (from the converse of C77) |
| C150 | composites in Master-equation trajectories and their partial traces | the generator is the sum of those of the components; those of the group commute with the partial trace, those of the rest drop out because they conserve the probability and commute with every operator of the group; uniqueness of the solution, and the global error of trajectories (C119) |
| C151 | `2ParticlesRingCavitySine.cc`, `MomentumCorrelation` (Model/ParticleScripts.lean): the system, the initial state and the average | composites of three constituents (C132); the two shifts of the detuning compensate for what the interactions leave out; any event of a trajectory keeps the symmetry, by induction; sums over the basis |
| C152 | the initial state of the same script | exact condition for the norm to vanish |
| C153 | `tutorialCompositeRing.cc` | reduced to `Ring` (C129) with other detunings |
| C154 | the Master-equation trajectories of C123 with the averages of C24; no new model, vocabulary in Spec/Relaxation.lean | the number of photons in the Heisenberg picture with the cutoff terms kept (`photon_generator`), the differential equation integrated (zero temperature) or bounded from both sides (finite temperature), the error of the stepper from C123 |
| C155 | the Jaynes-Cummings system of C77 and its Master-equation trajectories of C123; no new model, the formula of Rabi in Spec/Rabi.lean | the superposition satisfies the equation of motion up to a global phase (`rabi_action`); uniqueness of the solution of linear differential equations |
| C156 | the Master-equation trajectories of C123 of the lossy mode; no new model, the thermal state in Spec/Thermal.lean | the generator by elements (`generator_el`); the cumulative differences of the populations from the thermal ones and the weighted coherences obey linear systems dominated by their diagonals, so their 1-norms decay (`weighted_decay`); a maximum principle bounds the population of the highest level |
| C157 | `OptionsManager` of Testing/testdriver.py (Model/TestDriver.lean): the sections as association lists, the import rewriting them; the depth of recursion of Python as a parameter | invariant over all histories of queries: a query changes the configuration only into one with the same meaning (`Reachable.same`), the meaning being the inductive relation `Value` of Spec/TestDriver.lean |
| C158 | `Runner`, `GenericContinuer`: the command line, the loop with failures; system calls are any function on any type of worlds | refinement to the relation `Command` and the loop `exec`; the sorting of the keys is a permutation in strict order |
| C159 | `Verifier`, `load_sv`: genfromtxt and allclose after the documentation of numpy, with broadcasting | induction over the tables; equal shapes make broadcasting trivial |
| C160 | as C159 | violated; the exact condition for files with one line, and the other cases |
| C161 | `TrajectoryComparer`, `StateComparer`, `CompileTarget`, `final_temperature`; interpolation and quadrature are abstract | the loops decide (`Decides`) and the queries give (`Gives`) what the relations of Spec/TestDriver.lean say, for all reachable configurations |
| C162 | as C161; `str in bytes` raises an exception | violated; negations and bounds |
| C163 | matrix elements on the box of the indices; steps are solutions of the modelled right-hand side followed by the modelled exact propagation; derivative by `BinSimulates`/`CompSimulates`, constancy by induction over steps | proved |
| C164 | the text printed by applyImpl/generate.py; a syntax with its text and its meaning (Spec/ApplyGen.lean), the meaning of slices as in the model of `apply` | the text is that of a program (induction over the rank), whose execution is `apply` (induction over the recursion) |
| C165 | the logged steps of the trajectory (MCWFLog) on systems in an interaction picture (`Pictured`); assumption on the stepper: it does not leave the support that the derivative does not leave (`KeepsSupport`, witness: Euler). Not at finite temperature, where the rate of absorption at the cutoff does not belong to the truncated jump | support of the state in a sector, by induction over trials, retries and steps; the systems from their matrices |
| C166 | `isbz2`, `openStateFileReading`, `openStateFileWriting`; a codec satisfying `Bzip2` (Spec/StateFileOpen.lean) stands for the filters of Boost | form of the file by induction over the history of uses; then C38 |
| C167 | as C166, with uses by two kinds of builds | violated; exact condition (`builds_read_partial`) |
| C168 | as C59, but only a part of the states written has reached the disk | violated; exact condition by counting the rows |
| C169 | as C154; no new model | functions of the photon number in the Heisenberg picture (`diagonal_generator`), the generating function carried along the characteristic of the backward equation, its coefficients, the error of the stepper from C123 |
| C170 | as C25 and C123; no new model, the rate equations in Spec/RateEquations.lean | the generator element by element, uniqueness of the solution for the difference of the two sides placed in a diagonal matrix, the error of the stepper from C123 |
| C171 | the lossy Jaynes-Cummings system in Master-equation trajectories of C123; no new model, the oscillator equations in Spec/SingleExcitation.lean | all jumps lead to the dark state without excitation (`dark_solves`, from the conservation of the trace); uniqueness of the solution; the error of the stepper from C123 |
| C172 | networks of lossy modes in Master-equation trajectories of C123; no new model, the oscillator equations of `N` modes in Spec/PhotonNetwork.lean | action of the non-Hermitian Hamiltonian on one-photon states; all jumps lead to the vacuum (`dark_solves` as in C171); uniqueness of the solution; the error of the stepper from C123 |
| C173 | the constructors of the parameter classes as lists of registrations (`Model/ParsGroups`) | the names a sequence of registrations takes, by induction; cutting a name into stem and digits is unique |
| C174 | the same | violated; the exact condition for two modes, by the prefixes among the names |
| C175 | `Spec/Revival`: the phases of the plane waves, the density matrix in position representation, opposite points | each element of the density matrix solves a scalar equation; the wave numbers are integers, so the phases return |
| C176 | `Model/FunctionComparer`, on top of the model of the test driver; interpolation, quadrature and `ast.literal_eval` are parameters | each step of the loops decides its condition (`collect`, `trajLoop_decides`); the three laws are written out in `Spec/FunctionComparer` |
| C177 | `Model/TinyVectorIO`: streams as texts, the input and output of numbers is a parameter, that of complex numbers is modelled; `Spec/TinyVectorIO`: the grammar of the texts | induction on the components: each of the elements is consumed exactly; `Props/VectorParameters` puts it together with the command line of C47 |
| C178 | the same; whether the checks of blitz++ are in effect is a parameter | exact characterisation of the accepted texts; partial, since nothing switches the checks on |
| C179 | `Model/MatrixSlices`: the retained axes of rows and columns, on top of `Model/Slice` | the extension theorem of C03; the indices of a multi-matrix are pairs of multi-indices |
| C180 | `Model/ExpValues`: the two members of the dictionary; `Spec/ExpValues`: lists of entries, histories | refinement, by induction on the history |
| C181 | trajectories and collections as records of values, time and title | induction on the rows and the padded titles |
| C182 | the same | violated; what is kept and what is lost |
| C183 | `Model/FuzzyDouble`: over the reals, `gsl_fcmp` after the GSL, the binary exponent as `Int.log 2` | the tolerance is monotone in the larger absolute value and between one and two times epsilon times that |
| C184 | the same | violated: a chain of three steps from every positive number; what holds between equal numbers |
| C185 | `Model/TinyOfArrays`: the memory as list of blocks, arrays as numbers of blocks; `Spec/TinyOfArrays`: independence under all later writes | closed form of the deep copy by induction; the new blocks are beyond the earlier ones |

Floating point, memory safety and template instantiation are outside every model.

## 4. Disagreements between code and property (findings)

Each of these is a theorem (a negation with a witness, or an exact formula for what happens instead) unless marked (reading).

Numerical driver and trajectories
* C62: epsRel and epsAbs are exchanged on their way to the stepper, for Boost and GSL alike.
* C63: a Monte Carlo step set back because of the overshot jump probability does not restore `t0_`, so the retried step applies the exact propagator over a wrong interval.
* C60: a crash between writing the state record and the row loses that row after restart.
* C61: a truncated state file is completed with zeros, and handed to the archive.
* C35-C37: with a `dc` that does not divide the number of steps the final streaming is missing from the returned array; NDt is ignored when dc≠0; a run to T=0 saves no state; the state of the autostop handler is not serialised.
* The very first ODE step of a backward integration stalls (ODE model).
* C25, C71: the superoperator of diffusive Liouvilleans uses only the first coefficient, and equals the sum of jumps only up to a multiple of ρ.

Data and operators
* C65: a state vector reports its norm as trace, not the norm squared.
* C64: `FreeExact` uses an uninitialised diagonal for a zero time interval at the beginning.
* C56: the sum of Tridiagonals accepts different dimensions, and different frequencies in some of the diagonals.
* C57: products of Tridiagonals lose frequencies if in some diagonal only one factor has them; hence C80 for interactions in mixed pictures.
* C58: the product of two Sigmas is ill-formed for R1≠R2.
* C82: `wignerFunction` integrates to half of the trace. `wignerFunctionOld` raises 2i to a wrapped-around unsigned power, and writes out of bounds for dimension 1 (reading).
* C49: limits of scans given by the user are overwritten unless fLimitXUL/YUL is set to zero.
* hermitianConjugateSelf transposes only the view; ffTransform throws for sizes not a power of two (reading).

Elements and composites
* C66: BinarySystem subtracts the number of jumps of free 0 twice if free 1 is noiseless.
* C67: Composite ignores its interactions in highestFrequency.
* C70: the lossy spin does not conserve the trace for S>1/2.
* C72: Kerr terms differ among the pictures.
* C79: the phase of ParticleTwoModes has opposite sign in the special branch, and the general branches are not anti-Hermitian at the edge of the momentum space.
* C87: the homodyne term of the Hamiltonian has wrong coefficients, so that the averages depend on the local oscillator.
* C89: the second pump of the bichromatic mode restarts its phase in every time step.
* C91: the mode with alternative jumping at finite temperature does not lose the probability its jumps carry away.
* C93: the jump rate of the mode in interaction picture without exact part lacks 2κ and the time dependence, its averages are not normalised, and resuming a trajectory changes its Hamiltonian.
* Qbit with phase noise asked in Schrödinger picture is silently made in interaction picture; the keys of Spin label the variance `<sz^2>`; QbitModeCorrelations' "sigmaZ" is −½ of sigmazop; MultiLevel's HamiltonianIP declares a function it does not define; densityOperatorize compiles only for rank 1 (reading).
* C102: with zero width, the pumped particle calculates the width of the ground state of the harmonic approximation without regard to the wave number of the pump; and for the oscillator states, the width meant as
  standard deviation is used as characteristic length, so that these are narrower by a factor of √2.
* C105: the second pump in PumpedLossyMode_Evolved rotates with `δ+δ'`, that of `BichromaticMode` with `δ-δ'`.
* C106: in QbitMode_Evolved, the mode is driven with `gσ`; `JaynesCummings` with the same parameter gives `g*σ`.
* C109: with `nBins` and `nJumpsPerBin` both zero, the number of bins is calculated with an integer division by zero.
* C110: the summary is streamed whenever the log level is not zero, so at negative levels as well, contrary to the documentation.
* C113: `stateIO` and `readFromArrayOnlyArchive` make the state of the trajectory refer to the newly read array, which ends the sharing with the argument of `evolve`; a run continued from a state file therefore leaves the argument at the initial condition, contrary to the documentation ("the evolved state can always be accessed if the initial state is an lvalue").
* C124: the temporary of `std::swap` is constructed by moving and therefore shares the memory of the first state, and the assignments copy elements; hence both states end up with the value of the second one, and the first one is lost.
* C125: `Transferring` evaluates the averages in the state it was constructed with. The script QbitMode_Matrix accepts all evolution methods, but with `--evol master`, `--evol ensemble`, or when it is resumed from a state file, it displays the averages of the initial state for ever.
* C128: `1particle1mode` with standing waves in the default (interaction) picture: the light shift of the cavity is the product of a frequency-less and a rotating operator, the product does not rotate (C57, C80), and there is no Hamiltonian of which the equation integrated would be the Schrödinger equation.
* C131: `Ring_Evolved` evaluates the mode functions with wave number one, whatever `kCavP`, `kCavM` are.
* C133: `SingleParticle` accepts the parameters of the potential, but makes the particle by `make` instead of `makePumped`, so that the particle is free; the potential influences the initial condition only.
* C134: `PTLA_C++QED` without `fullImpl` (the default) silently ignores the parameter of phase noise it accepts.
* C136: with a negative `precision` the width is computed from the negative value, whereas the library streams six digits: adjacent columns run into each other.
* C138: `write` ignores the strides of the array (a transposed view is written untransposed), labels real arrays as complex, writes an empty file without complaint for other element types; the time is written but not loaded by C++; `read` returns only the first member of an ensemble.
* C140: Python's `expvalue` computes the expectation value of the transpose: ⟨a†⟩ for `destroy`; `reducesquare` returns the conjugate of what is documented; `actwith` with a subsystem named twice multiplies the state by Σ A(i,k)B(i,k).
* C142: Python's `coherent` raises an exception for complex amplitudes; `momentum_eigen` wraps momenta below the grid.
* C144: `load_evs` fails on a file with one data line, and on complex variables; `load_jumps` fails on resumed trajectories and returns a one-dimensional array for a single jump. `maxevs` is ignored.
* C146: in the guide to implementing elements, the column `<number operator>` is twice the photon number (`aJumpRate(matrix,1)` contains the factor 2); the X-X interaction lacks the division by `i`, so that it amplifies instead of coupling; with modes in different pictures, as in ExampleModeMain.cc, the frequencies get lost; `PumpedLossyModeIP` declares itself applicable in the Master equation although its exact part is not unitary.
* C149: `QbitMode_C++QED` with phase noise and `--picture Sch`: there is no qbit with phase noise in Schrödinger picture, `qbit::make` silently returns one in interaction picture, whose coupling to the mode in Schrödinger picture simulates no Hamiltonian at all. `Optomechanics` in its default picture: the same for the mechanical mode. `FourModes` ignores the parameters `nTh` it accepts; `PumpedLossyMode_C++QED` with `alternative` ignores the second pump, the temperature and the picture.
* C152: `2ParticlesRingCavitySine` with fermions in proportional states, as those of the default parameters are, normalises the null vector: the trajectory is started with amplitudes which are not numbers. The parameters of the second particle are used only for its initial state. In its default picture the script is subject to the violation of C128. `tutorialCompositeRing` does not shift the detunings as `Ring` does (C153).
* C111: `evolve` from a density operator with an ensemble does not compile (a `StateVector` is constructed from a `DensityOperator`); as the method is chosen at run time, `evolve` from a density operator does not compile at all. `evolveMaster` does.
* C95: `ReducedDensityOperatorNegativity::average_v` enlarges the averages by `resize`, which does not preserve the contents, instead of `resizeAndPreserve`. Without off-diagonals `ReducedDensityOperator` drops the additional labels.

Input and output
* C47: `addBool` leaves the switch registered when it throws because of "no_"+name; titles occupy the namespace of parameters; string values on the command line are split at whitespace.
* C48: empty comment lines are not marked; an unfinished comment line swallows the data line after it.
* C160: the verification of the tests accepts a file with a single line against any number of lines that agree with it, and a state file with a single state against any number of states that agree with it (broadcasting); `verify=outcome` always fails (`_verify_outcome` is called without arguments); any other value of `verify` than `full` and `outcome` passes without reading any file.
* C162: tests of compilation with an expected error (those of Testing/compilefail) never pass with Python 3, a string is looked for in bytes; the documented key `runmodes_<test>` is not read, only `runmodes_<test>_local`; a comparison whose filter leaves no run mode passes; `final_temperature(nTh)` contains 4 instead of `nTh` in the denominator, so that it is right for the only value used, 4.
* C167: if a build without compression continues a run begun by one with compression, its records are appended uncompressed after the bzip2 streams, and no build can read the file any more.
* C168: the states saved are buffered (by the stream, and by the compressor up to its block size), the rows are flushed one by one. After a kill, the restarted process goes on from an earlier state and repeats rows; if no state has reached the disk, then it restarts from the initial condition without notice, under the heading "Continuing from time 0". C59 holds under the assumption that states reach the disk at once.
* C52: containers of words (enumerations) cannot be read back.
* C50: γ=−1 and the resonantly driven undamped oscillator are not solved.
* C174: `ParsFunctionScan` applies its suffix only to the title, so that two of them in one table throw; modes without suffix and with the suffix `Fock` or `Alter` collide (`minit`/`minitFock`, `omegaKerr`/`omegaKerrAlter`); a spin and a lossy qbit both have a `gamma`.
* C178: the brackets and commas of vectors of parameters are checked by `BZPRECHECK`, which is empty unless `BZ_DEBUG` is defined; nothing defines it. `812,3]` is read as `[12,3]`.
* C182: a collection of expectation values made from a collection has no titles; `OrderedDict.copy` uses an undefined name and always fails.
* C184: equality of `FuzzyDouble`s is not transitive, so that `<` is no strict weak order, while the class is declared `boost::totally_ordered`.

## 5. Tests of the theorems

`seeded/LOG.jsonl` has one line for each wrong program tried: the definition edited, the edit, the claims broken, the theorems
that failed to prove, and the theorems tightened in response. The edits were made in a copy of `lean/` outside `/verif`.

How to read the log, and its limits:

* Most edits are generated: operators, constants, boundaries, branches and dropped updates are changed at random places of the
  definitions. Edits which do not compile in the model itself, and edits which only append an empty list, are left out.
* For generated edits the claims listed are those of the theorems whose proofs failed. They were not judged one by one. A proof
  script can also fail for an edit which leaves the statement true, so a failure is weaker evidence than a survival.
* The build was stopped at the first module that failed, so that the list of failed theorems is in general not complete.
* An edit that survived is either explained as equivalent, or answered with a tightened theorem. The note says whether the edit was
  run again after the tightening, and at which commit.
