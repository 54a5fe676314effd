{"id": "C01", "title": "Multi-index iteration visits every index exactly once, in lexicographic order", "statement": "Iterating a MultiIndexIterator from its begin state by ++ until it compares equal to its end state visits every multi-index of the inclusive box lbound..ubound exactly once, in strictly increasing lexicographic order, and stops after exactly prod(ub-lb+1) increments.", "quantifier": "every rank >= 1 and every pair of bound vectors with lb <= ub componentwise", "why_tests_cant": "rank and extents are unbounded; a test enumerates a few boxes only", "anchors": ["CPPQEDutils/MultiIndexIterator.h: MultiIndexIterator::operator++, begin, end, setToBegin, setToEnd"]}
{"id": "C02", "title": "Slices of an array are a partition of its elements", "statement": "For a valid vector V of retained axes, the slices produced by iterating fullRange<V>(array) are disjoint and exhaust the array: every element belongs to exactly one slice, at exactly one slice-internal position, and distinct (slice, position) pairs address distinct elements.", "quantifier": "every rank, every list of extents, every list V of distinct in-range axes (in any order)", "why_tests_cant": "all ranks, extents and axis selections cannot be enumerated", "anchors": ["CPPQEDutils/SliceIterator.h: filterOut, Transposer, Indexer, fullRange", "CPPQEDutils/SliceIterator.tcc: Transposer::_, Indexer::_", "CPPQEDutils/TMP_Tools.h: NegatedView"]}
{"id": "C03", "title": "Slice-wise application is the tensor extension of the operator", "statement": "Applying an action f to every V-slice of a state vector equals applying f (x) identity: the result at a full index depends only on the slice through that index, is f of that slice at the V-coordinates, acting on disjoint axis sets commutes, and a product state is mapped to the product with only the V factor changed.", "quantifier": "every rank, extents, axis list V, every action f on slices", "why_tests_cant": "a test can only exercise a handful of ranks and operators", "anchors": ["CPPQEDutils/SliceIterator.h: fullRange", "CPPQEDcore/composites/BinarySystem.cc: actWithU, addContribution", "CPPQEDcore/composites/Composite.tcc: worker"]}
{"id": "C04", "title": "Combinations with repetition: complete, duplicate free and indexable", "statement": "CWR_Dir(n,k) enumerates every length-n occupation vector with sum k exactly once, their number is binomial(n+k-1,k), operator[] returns the rows and the index lookup is the inverse of operator[] on these vectors.", "quantifier": "every n >= 1 and k", "why_tests_cant": "n and k are unbounded", "anchors": ["CPPQEDutils/Combinatorics.h: CWR_Dir, CWR_Dir::recurse, operator[]"]}
{"id": "C05", "title": "In-place M + M^dagger", "statement": "calculateTwoTimesRealPartOfSelf replaces a square complex matrix M by exactly M + M^dagger, in place, so the result is Hermitian and its trace is 2 Re Tr M; no entry is read after it was overwritten with a value that changes the result.", "quantifier": "every matrix size and every matrix", "why_tests_cant": "aliasing errors of in-place loops show only for particular sizes/entries", "anchors": ["CPPQEDutils/CMatrix.cc: calculateTwoTimesRealPartOfSelf"]}
{"id": "C06", "title": "In-place Hermitian conjugation is an involutive adjoint", "statement": "hermitianConjugateSelf turns a rank 2N array into the array whose element (i;j) is the complex conjugate of the old (j;i); doing it twice restores the array; Hermitian arrays are fixed.", "quantifier": "every rank, extents and array contents", "why_tests_cant": "all ranks, extents and contents", "anchors": ["CPPQEDutils/ComplexArrayExtensions.h: hermitianConjugateSelf, hermitianConjugate"]}
{"id": "C07", "title": "Outer product layout", "statement": "doDirect(a,b) yields the array whose element at the concatenated index (i,j) is a(i)*b(j) (or a(i)+b(j) for the additive variant); hence the norm of the direct product of state vectors is the product of the norms and the product is associative.", "quantifier": "every pair (triple) of arrays of any rank and extents", "why_tests_cant": "all shapes and contents", "anchors": ["CPPQEDutils/ComplexArrayExtensions.h: doDirect", "CPPQEDcore/quantumdata/StateVector.h: StateVector direct-product constructor, operator*"]}
{"id": "C08", "title": "Flattening a density operator and rebuilding it is lossless", "statement": "inflate(deflate(rho,true)) equals rho for every Hermitian density operator, the flat array has dim^2 entries with the diagonal first and then the upper triangle as (re,im) pairs in the order of the streamed key labels; without off-diagonals it is the dim diagonal entries. The rebuilt operator is Hermitian whatever the flat data.", "quantifier": "every dimension, every Hermitian matrix, every flat array of the right length", "why_tests_cant": "all dimensions and contents; the index arithmetic is checked by tests for two or three sizes", "anchors": ["CPPQEDcore/quantumdata/LazyDensityOperator.h: deflate", "CPPQEDcore/quantumdata/DensityOperator.h: inflate", "CPPQEDelements/utils/AveragingUtils.h: ReducedDensityOperator"]}
{"id": "C09", "title": "State vector and its dyad have the same elements as lazy density operators", "statement": "Read through the LazyDensityOperator interface a state vector psi and the density operator dyad(psi,psi) give the same diagonal and off-diagonal elements, hence identical reduced operators and averages.", "quantifier": "every state vector (normalised or not) and every index pair", "why_tests_cant": "all vectors and observables", "anchors": ["CPPQEDcore/quantumdata/StateVector.h: index, dyad", "CPPQEDcore/quantumdata/DensityOperator.h: DensityOperator(const StateVector&), index", "CPPQEDcore/quantumdata/LazyDensityOperator.h: operator()"]}
{"id": "C10", "title": "Partial trace is a physical reduction", "statement": "reduce<V>(rho) / partialTrace<V> sums over all complementary axes: it preserves the trace, maps Hermitian to Hermitian and positive to positive operators, gives Tr_B(a (x) b) = Tr(b) a, composes (tracing out in two steps equals tracing out at once), and expectation values of observables on V agree with those in the full system.", "quantifier": "every dimension of the retained and the traced part and every density operator", "why_tests_cant": "all dimensions and operators", "anchors": ["CPPQEDcore/quantumdata/LazyDensityOperator.h: partialTrace", "CPPQEDcore/quantumdata/DensityOperator.h: reduce", "CPPQEDutils/SliceIterator.h: diagonal slicing (LDO_DiagonalSliceIterator)"]}
{"id": "C11", "title": "Partial transpose and negativity", "statement": "Partial transposition with respect to V is an involution that keeps trace and Hermiticity; the negativity returned by negPT for a trace one Hermitian state is >= 0 and it is 0 for every product (and separable) state.", "quantifier": "every bipartition dimension and every density operator", "why_tests_cant": "all dimensions and operators", "anchors": ["CPPQEDcore/quantumdata/EntanglementMeasures.h: negPT, details::ExtendV / index swap"]}
{"id": "C12", "title": "Purity", "statement": "purity(rho) equals Tr(rho^2) for Hermitian rho, lies between 0 and (Tr rho)^2 for positive rho, is >= (Tr rho)^2/dim, and is 1 for the dyad of any normalised state vector.", "quantifier": "every dimension and density operator", "why_tests_cant": "all dimensions and operators", "anchors": ["CPPQEDcore/quantumdata/DensityOperator.h: purity", "CPPQEDcore/quantumdata/ArrayBase.h: frobeniusNorm"]}
{"id": "C13", "title": "Normalisation of state vectors and density operators", "statement": "renorm() returns the old norm and leaves norm exactly 1 (for nonzero state), changing the state only by a positive scalar; for density operators norm is the real trace and after renorm the trace is 1 with Hermiticity and positivity kept.", "quantifier": "every nonzero state of every dimension", "why_tests_cant": "all states", "anchors": ["CPPQEDcore/quantumdata/StateVector.h: norm, renorm", "CPPQEDcore/quantumdata/DensityOperator.h: norm, renorm"]}
{"id": "C14", "title": "Momentum/position transform is unitary and invertible", "statement": "ffTransform with direction XK followed by KX returns the original state vector for every number of points that is a power of two (other sizes of at least two are rejected), keeps the norm (Parseval), and on density operators acts as F rho F^dagger so trace and Hermiticity are kept.", "quantifier": "every array size which is a power of two and every state", "why_tests_cant": "all sizes and states", "anchors": ["CPPQEDcore/quantumdata/LazyDensityOperatorFFT.cc: ffTransformCV, ffTransform", "CPPQEDutils/FFT.h: transform, reverse"]}
{"id": "C15", "title": "Tridiagonal::apply is multiplication by the represented matrix", "statement": "apply(psi,dpsidt) adds to dpsidt exactly the product of psi with the matrix whose main, K-th lower and K-th upper diagonals are the stored ones, for every rank: the operator of a multi-system Tridiagonal is the sum over its 3^RANK diagonal blocks of shifted diagonal matrices.", "quantifier": "every rank, dimension vector, K vector, diagonal contents and state vector", "why_tests_cant": "boundary handling of ranges depends on sizes and K; all contents", "anchors": ["CPPQEDcore/quantumoperator/Tridiagonal.tcc: apply, doApply, fillRanges", "CPPQEDcore/quantumoperator/Tridiagonal.cc: constructor"]}
{"id": "C16", "title": "Direct product of Tridiagonals is the tensor product", "statement": "t1*t2 represents the Kronecker product of the operators of t1 and t2, with combined dimensions and K; applied to a product state it gives the product of the results.", "quantifier": "every pair of Tridiagonals of any ranks and contents", "why_tests_cant": "all shapes and contents", "anchors": ["CPPQEDcore/quantumoperator/Tridiagonal.tcc: Tridiagonal(const Tridiagonal<RANK2>&, const Tridiagonal<RANK-RANK2>&), directDiagonals"]}
{"id": "C17", "title": "Tridiagonal algebra: dagger, sum and scalar multiples", "statement": "dagger() represents the adjoint matrix and is an involution; += represents the matrix sum when it does not throw, merging missing diagonals, and it does succeed for compatible operands; *= and unary minus represent the scalar multiples; tridiagPlusHC always succeeds and is Hermitian, tridiagMinusHC always succeeds and is anti-Hermitian.", "quantifier": "every Tridiagonal (pair) of any rank, dimensions, offsets and contents", "why_tests_cant": "all contents; which diagonals are empty matters combinatorially", "anchors": ["CPPQEDcore/quantumoperator/Tridiagonal.tcc: hermitianConjugate, operator+=, operator*=", "CPPQEDcore/quantumoperator/Tridiagonal.h: tridiagPlusHC, tridiagMinusHC"]}
{"id": "C18", "title": "Interaction-picture propagation of Tridiagonals", "statement": "After furnishWithFreqs(mainDiagonal) and propagate(t) the operator equals U(t)^{-1} V U(t), U(t) being the diagonal exact propagator exp(-mainDiagonal t) of the same picture; propagate depends only on the target time, not on the history of earlier propagate calls.", "quantifier": "every time history, dimension, K, main diagonal and operator", "why_tests_cant": "histories and real times are unbounded", "anchors": ["CPPQEDcore/quantumoperator/Tridiagonal.cc: furnishWithFreqs", "CPPQEDcore/quantumoperator/Tridiagonal.tcc: propagate"]}
{"id": "C19", "title": "Sigma and its direct products", "statement": "Sigma<L,R> applied adds psi(R) to component L only, i.e. acts as |L><R|; dagger swaps L and R and is the adjoint; DirectProducts act as the tensor product with the other factor.", "quantifier": "every dimension, L, R, state and partner operator", "why_tests_cant": "all levels and states", "anchors": ["CPPQEDcore/quantumoperator/Sigma.h: Sigma::apply, dagger, DirectProduct::apply", "CPPQEDcore/quantumoperator/Sigma.cc: partialProject"]}
{"id": "C20", "title": "calculateMatrix recovers the Hamiltonian", "statement": "calculateMatrix returns, for a Hamiltonian given as the action H/i on state vectors, the matrix of H in the basis of the array elements; for anti-Hermitian H/i the returned matrix is Hermitian.", "quantifier": "every dimension and every linear Hamiltonian action", "why_tests_cant": "all Hamiltonians", "anchors": ["CPPQEDcore/structure/MatrixOfHamiltonian.h: calculateMatrix"]}
{"id": "C21", "title": "Mode jumps, superoperators and rates are mutually consistent", "statement": "For the (finite or zero temperature) mode: performing the photon-loss or absorption jump on psi gives sqrt(2 kappa..) a psi (a^dagger psi) with the truncation at the cutoff; the superoperator adds exactly J rho J^dagger; the reported loss rate equals ||J psi||^2 = Tr(J rho J^dagger), the reported absorption rate is Tr(J rho J^dagger) with the a^dagger not truncated.", "quantifier": "every cutoff, state vector, density operator, kappa, nTh", "why_tests_cant": "all cutoffs and states; in-place shift loops", "anchors": ["CPPQEDelements/frees/Mode.cc: aJump, aDagJump, aSuperoperator, aDagSuperoperator, photonNumber", "CPPQEDelements/frees/Mode_.h: Liouvillean"]}
{"id": "C22", "title": "The master equation conserves the trace", "statement": "For every shipped lossy mode (zero and finite temperature, either picture), qbit (with or without phase noise), spin 1/2, pumped two-level atom and multilevel element with radiative and diffusive decay, the density operator derivative assembled by Master from the non-Hermitian Hamiltonian and the jumps or jump superoperators has zero trace, up to the multiple of rho that the renormalisation of Master removes (finite temperature and pure dephasing), and is Hermitian when rho is. (Lossy spins with s>1/2: C70.)", "quantifier": "every parameter set, cutoff and density operator", "why_tests_cant": "all states and parameters; numerically the renormalisation in Master::step hides violations", "anchors": ["CPPQEDcore/quantumtrajectory/Master.h: derivative", "CPPQEDelements/frees/Mode.cc", "CPPQEDelements/frees/Qbit.cc", "CPPQEDelements/frees/MultiLevel.h", "CPPQEDelements/frees/Spin.cc", "CPPQEDelements/frees/PumpedTwoLevelAtom.cc"]}
{"id": "C23", "title": "Schroedinger and interaction pictures describe the same dynamics", "statement": "For every mode/qbit parameter set without Kerr nonlinearity (that is C72) the IP, UIP and Schroedinger variants generate the same physical evolution: the exact propagator and the interaction-picture Hamiltonian of the IP/UIP variants combine to the generator of the Schroedinger variant, H = -delta n + i(eta a^dagger - h.c.), with the same jumps.", "quantifier": "every parameter set (delta, kappa, nTh, eta), cutoff and time", "why_tests_cant": "all parameters and times", "anchors": ["CPPQEDelements/frees/Mode.cc: Exact::updateU, Hamiltonian, mainDiagonal, hOverI", "CPPQEDelements/frees/Mode.tcc: make"]}
{"id": "C24", "title": "Displayed averages are expectation values", "statement": "Mode, Qbit, Spin and particle averages, the correlations displayed for two modes and for a qbit and a mode, and the cutoff monitoring are the expectation values of the operators named in their keys (<n>, VAR(n), <a>, quadrature (co)variances, <sz>, <s+>, <P>, VAR(P), <X>, DEV(X), ...): after process() the second moments are variances, which are non-negative for every physical state.", "quantifier": "every cutoff and every density operator", "why_tests_cant": "all states", "anchors": ["CPPQEDelements/frees/Mode.cc: Averaged, AveragedQuadratures", "CPPQEDelements/frees/Spin.cc: SpinBase::average_v, process_v", "CPPQEDelements/frees/Qbit.cc: Averaged", "CPPQEDelements/frees/Particle.cc: Averaged", "CPPQEDelements/interactions/ModeCorrelations.cc", "CPPQEDelements/interactions/QbitModeCorrelations.cc"]}
{"id": "C25", "title": "Diffusive (phase-noise) superoperator matches its jumps", "statement": "For a system with phase diffusion of equal coefficients on all levels, each diffusion jump multiplies with sqrt(2D) times the sign flip of its level, and the superoperators of the diffusion jumps add the sum over levels of J_l rho J_l^dagger up to a multiple of rho, which the normalisation of the density operator after each step removes; so both evolution methods describe the same process.", "quantifier": "every number of levels, diffusion coefficient and density operator", "why_tests_cant": "all dimensions and states", "anchors": ["CPPQEDcore/structure/ElementLiouvillean.h: ElementLiouvilleanDiffusive"]}
{"id": "C26", "title": "Mode-function composition", "statement": "For a particle, mfComposition(f,g) represents the operator of multiplication by conj(f(x)) g(x) (normalised modes, in the momentum basis of the particle, and in the picture of the particle) for every pair of mode-function types and wave numbers with |k1|=|k2|, and throws otherwise; mfNKX(f) represents multiplication by f(x). (The particle-cavity interactions built of them: C76.)", "quantifier": "all 16 type pairs, all integer wave numbers up to half the number of grid points, every grid size, every time", "why_tests_cant": "wave numbers and grid sizes are unbounded", "anchors": ["CPPQEDelements/frees/Particle.cc: mfComposition, expINKX, mfNKX", "CPPQEDelements/utils/ModeFunction.cc"]}
{"id": "C27", "title": "Binary system: jump numbering matches rates and labels", "statement": "In a BinarySystem the rates, the labels and the jumps are numbered in the same order: first free0's, then free1's, then the interaction's. Jump number i of either free is performed by the component whose rate is in column i and whose label is the i-th, on its own subspace; so are the interaction's whenever free1 is noisy or free0 has no jumps (for the remaining case see C66). For actWithJ as well as actWithSuperoperator.", "quantifier": "every combination of components with/without Liouvillean and every jump count", "why_tests_cant": "jump counts and presence combinations are unbounded", "anchors": ["CPPQEDcore/composites/BinarySystem.cc: actWithJ_v, actWithSuperoperator_v, nAvr, average, streamKey"]}
{"id": "C28", "title": "Composite: jump numbering matches rates and labels", "statement": "In a Composite jump number i is dispatched to exactly one component (frees in order, then acts in order), the one that owns column i of the rates and label i; numbers out of range act on nothing.", "quantifier": "every number of frees and interactions with any jump counts", "why_tests_cant": "numbers of subsystems and jumps are unbounded", "anchors": ["CPPQEDcore/composites/Composite.tcc: actWithJ_v, actWithSuperoperator_v, averageLA, nAvrLA, streamKeyLA"]}
{"id": "C29", "title": "Composite averages: every column is processed and streamed by its owner exactly once", "statement": "The averages of a composite system are the concatenation of the components' averages in key order; process() and stream() hand every component exactly its own contiguous range and leave other ranges untouched.", "quantifier": "every sequence of components with arbitrary (also zero) numbers of averages", "why_tests_cant": "number of components and columns unbounded", "anchors": ["CPPQEDcore/composites/BinarySystem.cc: process_v, stream_v, average_v", "CPPQEDcore/composites/Composite.tcc: process_v, stream_v, averageLA", "CPPQEDutils/Algorithm.h: concatenate", "CPPQEDelements/utils/AveragingUtils.h: Collecting"]}
{"id": "C30", "title": "Key numbering covers the output columns without gap or overlap", "statement": "The column numbers printed in the key (starting from the given offset) are consecutive over titles of all components, their number equals nAvr, and the returned offset is the next free column; labels shorter than nAvr never occur.", "quantifier": "every list of components and labels and every starting column", "why_tests_cant": "numbers of labels unbounded", "anchors": ["CPPQEDutils/KeyPrinter.cc: stream", "CPPQEDcore/composites/Composite.tcc: streamKeyLA", "CPPQEDcore/structure/ElementAveraged.h"]}
{"id": "C31", "title": "Hamiltonian of a composite is the sum of the components' extensions", "statement": "addContribution of Binary/Composite adds to dpsidt the sum of all components' actions extended to the full space; the result is linear, independent of the order of components, and previously accumulated dpsidt is kept.", "quantifier": "every set of components, ranks, axis selections and states", "why_tests_cant": "all component sets", "anchors": ["CPPQEDcore/composites/BinarySystem.cc: addContribution_v", "CPPQEDcore/composites/Composite.tcc: addContribution_v"]}
{"id": "C32", "title": "Composite construction checks consistency", "statement": "Making a Composite succeeds iff all interactions agree on the free element at each axis, then each axis carries that element and its dimension is used; conflicting frees throw; a gap in the addressed axes is rejected.", "quantifier": "every list of interactions and axis vectors", "why_tests_cant": "all axis assignments", "anchors": ["CPPQEDcore/composites/Composite.tcc: fillFrees, fillDimensions", "CPPQEDcore/composites/details_TMP_helpers.h: CheckMeta"]}
{"id": "C33", "title": "Highest frequency bounds every component", "statement": "highestFrequency() of an element bounds the modulus of each of its declared frequencies (times multiplier) and is attained; that of a BinarySystem bounds those of the two frees and of the interaction; that of a Composite those of its frees (for the interactions see C67). The initial time step 1/(10 f) turns no oscillation bounded by f by more than 1/10.", "quantifier": "every list of frequencies and components", "why_tests_cant": "all lists", "anchors": ["CPPQEDcore/structure/DynamicsBase.cc: highestFrequency", "CPPQEDcore/composites/BinarySystem.cc: highestFrequency_v", "CPPQEDcore/composites/Composite.tcc: highestFrequency_v", "CPPQEDutils/Trajectory.h: initialTimeStep"]}
{"id": "C34", "title": "advance reaches exactly the requested time", "statement": "advance(trajectory,deltaT) performs steps none of which overshoots and, whenever it returns, the time is exactly old time + deltaT; it makes progress with each step and terminates if step sizes are bounded below (except the last); advanceTo(t) ends at t.", "quantifier": "every sequence of step sizes chosen by the adaptive stepper", "why_tests_cant": "step-size histories are unbounded", "anchors": ["CPPQEDutils/Trajectory.h: advance, advanceTo"]}
{"id": "C35", "title": "run(): streaming schedule", "statement": "run with Dt up to a final time T streams at the start and then after every Dt with the last output exactly at T; with NDt it streams exactly NDt+1 times at multiples of Dt; with dc it streams after every dc-th step and at the end; the trajectory never passes T, and a run whose target time has been reached does nothing.", "quantifier": "every T, Dt, NDt, dc, starting time and stepper behaviour", "why_tests_cant": "unbounded step histories and parameters", "anchors": ["CPPQEDutils/Trajectory.h: run, trajectory::run main loop"]}
{"id": "C36", "title": "run(): the final state is always saved", "statement": "Whenever run finishes (normally or by an autostop), the last record of the state file holds the trajectory's final time and state, states are written every sdf-th streaming, in increasing time order, and not written twice at the end.", "quantifier": "every run length, streaming frequency, sdf, continuing or fresh, autostop behaviour", "why_tests_cant": "schedules and lengths are unbounded", "anchors": ["CPPQEDutils/Trajectory.h: trajectory::run (state streaming), writeViaSStream"]}
{"id": "C37", "title": "Interrupted and resumed run equals the uninterrupted one", "statement": "Running to time T1 with state saved, then continuing from the state file to T2, yields the same sequence of streamed states and the same final state as one run to T2 (with the same cadence), and the concatenated trajectory file has no duplicated row.", "quantifier": "every split point of the run (NDt mode), every deterministic stepper whose full state is serialised", "why_tests_cant": "every crash/stop point", "anchors": ["CPPQEDutils/Trajectory.h: trajectory::run (continuing), ReadState, WriteState"]}
{"id": "C38", "title": "State file framing round trip", "statement": "Reading a state file returns exactly the sequence of states written, in order, for any number and sizes of records, appended over several runs; the last one is what a continued run starts from; metadata mismatch (rank, type, trajectory id) is rejected.", "quantifier": "every list of records with arbitrary contents", "why_tests_cant": "The contents of the archives are arbitrary bytes, also digits and white space, which the formatted input of the size could confuse with the number; tests cover a few states only.", "anchors": ["CPPQEDutils/Trajectory.h: readViaSStream, writeViaSStream, ReadState, SerializationMetadata"]}
{"id": "C39", "title": "Adaptive ODE step contract", "statement": "One ODE step moves the time by dtDid with 0 < dtDid <= deltaT, never past the requested interval, whatever trial steps get rejected on the way; the new state is that of a single accepted trial step from the original state; the trial step for the next call stays positive, it is kept when the interval was shorter than a tenth of it, and otherwise is the stepper's suggestion; a backward step obeys the mirrored bounds if a forward step has been made before.", "quantifier": "every history of accepted/rejected trial steps, every interval and state", "why_tests_cant": "stepper histories unbounded", "anchors": ["CPPQEDutils/ODE.h: Base::step", "CPPQEDutils/ODE_GSL.h: try_step"]}
{"id": "C40", "title": "Monte Carlo jump selection is faithful", "statement": "In a Monte Carlo step with rates r_i and step dt, jump i is selected exactly when the random number falls in an interval of length r_i dt, these intervals are disjoint, no jump occurs with probability 1 - dt sum r_i, at most one jump happens per step, and special (negative) rates are replaced by ||J psi||^2.", "quantifier": "every list of non-negative rates, dt and random number in [0,1)", "why_tests_cant": "real-valued inputs, unbounded numbers of channels", "anchors": ["CPPQEDcore/quantumtrajectory/MCWF_Trajectory.h: performJump, calculateSpecialRates"]}
{"id": "C41", "title": "Monte Carlo step keeps the state normalised and bounds the jump probability", "statement": "After every step the state vector has norm one; when the total jump probability overshoots the tolerance the trajectory is set back to exactly the state before the step and the step is reduced so that the retried probability meets the limit; time does not decrease over an accepted step.", "quantifier": "every state, rates function, stepper behaviour, random numbers", "why_tests_cant": "random and adaptive histories", "anchors": ["CPPQEDcore/quantumtrajectory/MCWF_Trajectory.h: step, coherentTimeDevelopment, manageTimeStep"]}
{"id": "C42", "title": "Master-equation step keeps rho a density operator", "statement": "Each Master step (ODE derivative, exact propagation, smoothing, renormalisation) maps Hermitian to Hermitian, ends with trace one, and the exact part acts as U rho U^dagger; systems with a non-unitary interaction picture are rejected at construction.", "quantifier": "every Hermitian rho, Hamiltonian, set of jumps and step", "why_tests_cant": "all operators", "anchors": ["CPPQEDcore/quantumtrajectory/Master.h: step, derivative, constructor checks"]}
{"id": "C43", "title": "Ensemble averages", "statement": "The density operator of an ensemble is the arithmetic mean of the members' dyads: Hermitian, positive, trace one when members are normalised; independent of the member order; the averages streamed for an ensemble are those of that density operator; each member is advanced, in its place, over the same time.", "quantifier": "every number and content of members", "why_tests_cant": "all ensembles", "anchors": ["CPPQEDutils/StochasticTrajectory.h: Ensemble", "CPPQEDcore/quantumtrajectory/MCWF_Trajectory.h: AverageTrajectories, makeEnsemble"]}
{"id": "C44", "title": "Ensemble members use distinct, reproducible random streams", "statement": "The i-th member of an ensemble uses the random stream prngStream+i of the seed; streams of different members of one ensemble are distinct and depend only on (seed, first stream, i), and consecutive ensembles made from the same parameters do not reuse a stream.", "quantifier": "every seed, starting stream and ensemble size", "why_tests_cant": "all sizes", "anchors": ["CPPQEDutils/Random.h: streamOfOrdo, incrementForNextStream, EngineWithParameters", "CPPQEDcore/quantumtrajectory/MCWF_Trajectory.h: makeEnsemble"]}
{"id": "C45", "title": "Exact propagation cache", "statement": "FreeExact::actWithU multiplies the state by U(t) of the requested time whatever calls preceded it: the cached diagonal never leaks the propagator of another time (once any nonzero time has been requested, including the present request).", "quantifier": "every history of requested times with at least one nonzero time", "why_tests_cant": "call histories unbounded", "anchors": ["CPPQEDcore/structure/FreeExact.h: actWithU_v", "CPPQEDcore/structure/TimeDependence.h: OneTime, TwoTime"]}
{"id": "C46", "title": "Autostop", "statement": "With autostop repetition n>0 the run is stopped only if the averages agree with the mean of the last n stored averages within the relative tolerance, never before n+2 streamings, and always when the streamed averages become constant; repetition 0 never stops.", "quantifier": "every sequence of streamed averages", "why_tests_cant": "sequences unbounded", "anchors": ["CPPQEDutils/Trajectory.h: AutostopHandlerGeneric"]}
{"id": "C47", "title": "Command-line parameters", "statement": "update() assigns to each parameter given on the command line the last value given, leaves all others at their defaults, rejects unknown names before running, honours the prefix, and a boolean given as --no_x negates x; registering a name twice is an error.", "quantifier": "every table and token list", "why_tests_cant": "all command lines", "anchors": ["CPPQEDutils/Pars.cc: update, operator[], Table::add<bool>", "CPPQEDutils/Pars.h: Table::add", "CPPQEDutils/BooleanNegatedProxy.h"]}
{"id": "C48", "title": "Commented output", "statement": "In a trajectory output file every non-empty line of log/header/key text written through the commenting streams starts with the comment mark '# ' (empty lines remain empty), irrespective of how the text is split into write calls, and lines written directly to the file are never altered: removing the comment lines and empty lines gives exactly the data, provided each writer finishes its lines (flushes with endl) before another writes, and data lines do not begin with '#'. An unfinished comment line swallows the data line written after it.", "quantifier": "every text, every split into chunks, every interleaving of the writers", "why_tests_cant": "all chunkings and interleavings", "anchors": ["CPPQEDutils/CommentingStream.h: CommentingMachine", "CPPQEDutils/Trajectory.h: run header/log streaming"]}
{"id": "C49", "title": "Husimi function and scans", "statement": "The Husimi function returned by qFunction is non-negative for every density operator, no imaginary part is dropped, and (for cutoffs up to 170) equals <alpha|rho|alpha> (without 1/pi); scanFunction with a positive step evaluates on the regular half-open grid of the requested window, each grid point exactly once; with a non-positive step it does not terminate; the window is the symmetric one unless fLimitXUL (fLimitYUL) is zero.", "quantifier": "every density operator, cutoff, alpha, grid", "why_tests_cant": "all states and points", "anchors": ["CPPQEDcore/quantumdata/DistributionFunctions.h: qFunction, scanFunction", "CPPQEDcore/quantumdata/DistributionFunctions.cc: ParsFunctionScan", "CPPQEDutils/MathExtensions.cc: coherentElement"]}
{"id": "C50", "title": "Driven damped harmonic oscillator reference solution", "statement": "ddho::make(gamma,omega,ampTI,ampDerivTI,tInit) returns the (unique) function satisfying y''+2 gamma y'+y = exp(i omega t) with the given value and derivative at tInit, in the underdamped, critically damped and overdamped branches, for all parameters except gamma=-1 and the resonantly driven undamped case gamma=0, |omega|=1.", "quantifier": "all parameters, initial values and times", "why_tests_cant": "real parameters and times", "anchors": ["CPPQEDutils/DrivenDampedHarmonicOscillator.cc", "CPPQEDutils/DrivenDampedHarmonicOscillator.h"]}
{"id": "C51", "title": "Fock and coherent states", "statement": "fock(n,dim) is a normalised basis vector or throws when n>=dim; coherent(alpha,cutoff) has components alpha^n e^{-|alpha|^2/2}/sqrt(n!) (exactly for n<170, within 0.025% above), norm at most 1 and tending to 1, and is an eigenstate of the annihilation operator up to the cutoff; factorial and binomial helpers equal the mathematical functions or report an error.", "quantifier": "every n, dim, alpha", "why_tests_cant": "all arguments", "anchors": ["CPPQEDelements/frees/Mode.cc: fock, coherent, init", "CPPQEDutils/MathExtensions.cc: fact, choose, coherentElement"]}
{"id": "C52", "title": "Text round trip of enumerations and containers", "statement": "Writing an EvolutionMethod, ModeFunctionType or picture value and reading it back gives the same value and consumes exactly the word; unknown words, missing words and failed streams set the stream's error state and leave the variable unchanged; the master equation is never run in the interaction picture. Containers printed by ContainerIO read back identically into a container of the same size, provided the elements' own text is read back when followed by a delimiter (numbers, containers: yes; words: no); a text with another number of elements or another kind of bracket sets the error state.", "quantifier": "every value, every word, every container and nesting of containers", "why_tests_cant": "all words/containers", "anchors": ["CPPQEDcore/quantumtrajectory/EvolutionMethod.cc", "CPPQEDelements/utils/ModeFunction.cc", "CPPQEDcore/high/QM_Picture.cc: updateWithPicture", "CPPQEDutils/ContainerIO.h"]}
{"id": "C53", "title": "Elements and interactions without losses conserve the norm; Jaynes-Cummings conserves the excitations", "statement": "With zero loss MultiLevel (any drives), Mode and Qbit (any pump), JaynesCummings, coupled modes, MLJC (any list of couplings) and the particle in a cavity generate unitary dynamics: while the integrated state follows the right-hand side, the derivative of the norm of the physical state vanishes. Without pumps Jaynes-Cummings conserves the number of excitations as well.", "quantifier": "every parameter list, cutoff, admissible picture, time and state", "why_tests_cant": "all lists, pictures and states", "anchors": ["CPPQEDelements/frees/MultiLevel.h: HamiltonianSch", "CPPQEDelements/interactions/JaynesCummings_.h", "CPPQEDelements/interactions/CoupledModes.cc", "CPPQEDelements/interactions/MLJC.h", "CPPQEDelements/interactions/ParticleCavity.cc"]}
{"id": "C54", "title": "Dimensions bookkeeping", "statement": "The total dimension reported by a quantum system or state always equals the product of its per-axis dimensions, also after setDimensions and for concatenated systems; equality of bookkeepers is equality of dimension vectors.", "quantifier": "every dimension vector and sequence of updates", "why_tests_cant": "all vectors and histories", "anchors": ["CPPQEDcore/quantumdata/DimensionsBookkeeper.h"]}
{"id": "C55", "title": "Entropy of a density operator", "statement": "entropy(rho) is the von Neumann entropy -sum(lambda log lambda) of the eigenvalues; for a positive operator of unit trace it lies between 0 and the logarithm of the total dimension, zero eigenvalues contributing nothing.", "quantifier": "every dimension and every density operator", "why_tests_cant": "all dimensions and operators", "anchors": ["CPPQEDcore/quantumdata/EntanglementMeasures.h: entropy"]}
{"id": "C56", "title": "Tridiagonal sum rejects incompatible operands", "statement": "t1+=t2 throws if the operands have different dimensions, different offsets K, or different interaction-picture frequencies.", "quantifier": "every pair of Tridiagonals of any rank", "why_tests_cant": "error branches depend on combinations of empty and nonempty diagonals and on all elements of the frequency arrays", "anchors": ["CPPQEDcore/quantumoperator/Tridiagonal.tcc: operator+="]}
{"id": "C57", "title": "Direct products of Tridiagonals propagate as products", "statement": "(t1*t2).propagate(t) represents the tensor product of t1.propagate(t) and t2.propagate(t): the direct product of operators of subsystems in (possibly different) interaction pictures stays in the product of those pictures.", "quantifier": "every pair of furnished or unfurnished Tridiagonals and every time", "why_tests_cant": "depends on which diagonals carry frequencies, for all ranks and times", "anchors": ["CPPQEDcore/quantumoperator/Tridiagonal.tcc: directDiagonals, propagate", "CPPQEDelements/interactions/ParticleCavity.cc: dispersive", "CPPQEDelements/interactions/JaynesCummings_.h"]}
{"id": "C58", "title": "Products of two Sigmas", "statement": "Sigma<L1,R1>*Sigma<L2,R2> is available for all level indices and acts as |L1><R1| tensor |L2><R2|.", "quantifier": "every quadruple of level indices and dimensions", "why_tests_cant": "templates are instantiated only for the indices used in tests", "anchors": ["CPPQEDcore/quantumoperator/Sigma.h: operator*(const Sigma<L1,R1>&, const Sigma<L2,R2>&)"]}
{"id": "C59", "title": "Crash of a run: what can be recovered", "statement": "If a run that saves its state at every sdf-th streaming is killed at any point, then the trajectory file contains the first a rows of the run, the last state record is of the state number b with b<=a<=b+sdf, and the restarted process goes on with exactly the states b+1, b+2, ... of the original run, ending in the same final state.", "quantifier": "every crash point between two effects on the files, every length, sdf", "why_tests_cant": "Crash points cannot be enumerated by tests.", "anchors": ["CPPQEDutils/Trajectory.h: trajectory::run"]}
{"id": "C60", "title": "Crash of a run: no row is lost", "statement": "After a crash at any point and a restart, each streaming instant from the beginning to the end has a row in the trajectory file.", "quantifier": "every crash point between two effects on the files", "why_tests_cant": "Crash points cannot be enumerated by tests.", "anchors": ["CPPQEDutils/Trajectory.h: trajectory::run"]}
{"id": "C61", "title": "A truncated state file is not silently accepted", "statement": "If the state file is truncated at any point inside a record, the complete records before it are read correctly, and the truncated one results in an exception.", "quantifier": "every truncation point of every state file", "why_tests_cant": "Truncation points and contents cannot be enumerated.", "anchors": ["CPPQEDutils/Trajectory.h: readViaSStream"]}
{"id": "C62", "title": "Tolerances reach the stepper", "statement": "The user's epsRel and epsAbs are used by the adaptive stepper as its relative and absolute tolerance, respectively.", "quantifier": "all pairs of tolerances", "why_tests_cant": "accuracy tests pass with either assignment", "anchors": ["CPPQEDutils/ODE.h: MakeControlledErrorStepper", "CPPQEDutils/ODE_GSL.h: MakeControlledErrorStepper, ControlledErrorStepperGSL"]}
{"id": "C63", "title": "Retried Monte Carlo steps propagate from the right time", "statement": "When a Monte Carlo step is set back because the jump probability overshot, the retried step applies the exact (interaction-picture) propagator over the retried interval, i.e. from the time before the step to the new time, so that a retried step gives the same as a direct step of that length.", "quantifier": "every system, state and history of step-backs", "why_tests_cant": "step-backs are rare random events and the error is a wrong phase or damping", "anchors": ["CPPQEDcore/quantumtrajectory/MCWF_Trajectory.h: step, manageTimeStep, coherentTimeDevelopment"]}
{"id": "C64", "title": "Exact propagation over zero time leaves the state unchanged", "statement": "FreeExact::actWithU over an interval of zero length leaves the state unchanged also when it is the first call on a fresh object.", "quantifier": "every fresh object, every state", "why_tests_cant": "the outcome depends on the content of uninitialised memory", "anchors": ["CPPQEDcore/structure/FreeExact.h: FreeExact, actWithU_v"]}
{"id": "C65", "title": "State vector and its dyad report the same trace", "statement": "trace() of a state vector, read through the LazyDensityOperator interface, equals the trace of the density operator dyad(psi,psi).", "quantifier": "every state vector (normalised or not)", "why_tests_cant": "all vectors", "anchors": ["CPPQEDcore/quantumdata/StateVector.h: trace_v, norm", "CPPQEDcore/quantumdata/LazyDensityOperator.h: trace"]}
{"id": "C66", "title": "Binary system: every interaction jump is performed", "statement": "In a BinarySystem with any combination of noisy and noiseless components, jump number n0+n1+j is jump j of the interaction.", "quantifier": "every combination of components with/without Liouvillean and every jump count", "why_tests_cant": "presence combinations and jump counts are unbounded", "anchors": ["CPPQEDcore/composites/BinarySystem.cc: actWithJ_v, actWithSuperoperator_v"]}
{"id": "C67", "title": "Composite: highest frequency bounds the interactions, too", "statement": "highestFrequency() of a Composite bounds the frequencies of its interactions.", "quantifier": "every set of components", "why_tests_cant": "all lists", "anchors": ["CPPQEDcore/composites/Composite.tcc: highestFrequency_v"]}
{"id": "C68", "title": "Exact propagation of a composite is the product of the components' propagators", "statement": "When the exact propagators of the components are diagonal, actWithU of a Binary/Composite multiplies each amplitude by the product of the components' propagators at the component's own quantum numbers; the composite is applicable in the master equation iff all of its exact components are.", "quantifier": "every set of components, axis selections, times and states", "why_tests_cant": "all component sets and dimensions", "anchors": ["CPPQEDcore/composites/BinarySystem.cc: actWithU_v, applicableInMaster_v", "CPPQEDcore/composites/Composite.tcc: actWithU_v, applicableInMaster_v"]}
{"id": "C69", "title": "Lindblads are dispatched by their number", "statement": "For an element with several Lindblads, the number k selects the k-th jump, the k-th rate and the k-th superoperator; a number out of range throws, and so does a superoperator that is not implemented.", "quantifier": "every list of Lindblads, number, state", "why_tests_cant": "any number of Lindblads", "anchors": ["CPPQEDcore/structure/ElementLiouvillean.h: ElementLiouvilleanStrategies, ElementLiouvillean"]}
{"id": "C70", "title": "The lossy spin conserves probability", "statement": "The density operator derivative of the lossy spin has zero trace (up to a multiple of the trace of rho, removed by renormalisation), for every spin length.", "quantifier": "every twoS, dimension, gamma, omega, density operator", "why_tests_cant": "all states and spins; the renormalisation in Master::step hides violations", "anchors": ["CPPQEDelements/frees/Spin.cc: doActWithJ, updateU", "CPPQEDelements/frees/Spin.h: LossySpin"]}
{"id": "C71", "title": "Diffusive superoperator with unequal coefficients", "statement": "For a system with phase diffusion of different coefficients on the levels, the superoperators of the diffusion jumps equal the sum of J_l rho J_l^dagger up to a multiple of rho.", "quantifier": "every list of coefficients and density operator", "why_tests_cant": "all dimensions and states", "anchors": ["CPPQEDcore/structure/ElementLiouvillean.h: ElementLiouvilleanDiffusive"]}
{"id": "C72", "title": "Kerr nonlinearity in all the pictures", "statement": "A mode with Kerr nonlinearity (omegaKerr, omegaKerrAlter) describes the same dynamics, with H_Kerr = omega n(n-1), in the interaction, unitary interaction and Schroedinger pictures.", "quantifier": "every parameter set, picture and cutoff", "why_tests_cant": "all parameters", "anchors": ["CPPQEDelements/frees/Mode.cc: Exact, Hamiltonian, mainDiagonal, hOverI"]}
{"id": "C73", "title": "The spin element simulates the Hamiltonian z S_n", "statement": "Spin and LossySpin simulate z(S_z+S)/i through the exact propagator, SpinSch and LossySpinSch z S_n/i for the direction (theta,phi), with the jump sqrt(2 gamma) S_- and the rate Tr(J rho J^dagger); the operators obey the spin algebra [S+,S-]=2S_z, [S_z,S+]=S+ in the space of dimension 2S+1.", "quantifier": "every spin length, truncated dimension, direction, frequency, decay rate and state", "why_tests_cant": "all spins, directions and states", "anchors": ["CPPQEDelements/frees/Spin.cc: splus, sz, doActWithJ, rate, updateU", "CPPQEDelements/frees/Spin.h: sn, Spin, SpinSch, LossySpin, LossySpinSch"]}
{"id": "C74", "title": "Multilevel elements simulate their Hamiltonian and decays", "statement": "A multilevel element made with any list of pumped and decaying transitions between its levels, the pumped two-level atom and the element given by an arbitrary matrix evolve any state by the documented Hamiltonian (level energies, pump terms eta|j><i|-h.c. and the non-Hermitian damping of the decaying levels), each decay channel jumps the upper level into the lower with its rate, and the diffusive variant adds the dephasing superoperator.", "quantifier": "every number of levels, list of pumps and decays, parameters and states", "why_tests_cant": "any number of levels and any list of transitions, including repeated ones", "anchors": ["CPPQEDelements/frees/MultiLevel.h: HamiltonianSch, Liouvillean", "CPPQEDelements/frees/PumpedTwoLevelAtom.cc", "CPPQEDelements/frees/TimeIndependentMatrixHamiltonian.cc"]}
{"id": "C75", "title": "A particle moves freely or in the potential of its mode function", "statement": "A particle made with any number of grid points, recoil frequency, potential depth, wave number and mode-function type evolves any state by the kinetic term omrec k^2 plus vClass |f(x)|^2 (with the zero of energy such that the potential averages to zero over a period), in either picture.", "quantifier": "every resolution, parameter set, mode function, picture and state", "why_tests_cant": "all parameters and states; pictures must agree for all times", "anchors": ["CPPQEDelements/frees/Particle.cc: hOverI, mainDiagonal, Exact, Hamiltonian, particle::make, makePumped"]}
{"id": "C76", "title": "A composite gives the same physics in any mixture of pictures", "statement": "For every composite of free systems and interactions, whichever of the free systems are integrated in an interaction picture, the physical state vector recovered from the integrated one follows the Schroedinger equation of one and the same Hamiltonian: the sum of the free Hamiltonians and the interactions; it coincides with the integrated one at the beginning of the step.", "quantifier": "every number of subsystems, dimensions, choice of pictures, interaction terms, times and states", "why_tests_cant": "all dimensions, all pictures, all times: a continuum of cases", "anchors": ["CPPQEDcore/composites/Composite.tcc: actWithU_v, addContribution_v", "CPPQEDcore/composites/BinarySystem.cc: Exact::actWithU_v, Hamiltonian::addContribution_v"]}
{"id": "C77", "title": "Interacting systems simulate their textbook Hamiltonians", "statement": "Jaynes-Cummings systems of a mode and a qbit or spin, coupled modes, the Dicke model and the multilevel Jaynes-Cummings coupling, made with any parameters of the free elements (pumps, losses, detunings), simulate the sum of the free Hamiltonians and the documented coupling, for any cutoffs, couplings and states, in all the pictures where both or none of the two coupled elements is in the Schroedinger picture.", "quantifier": "every cutoff, spin, coupling, parameter set, time and state; every admissible pair of pictures", "why_tests_cant": "all parameters, dimensions, times and states", "anchors": ["CPPQEDelements/interactions/JaynesCummings_.h: Base, make", "CPPQEDelements/interactions/CoupledModes.cc: Base", "CPPQEDelements/interactions/GeneralDicke.cc: Base", "CPPQEDelements/interactions/MLJC.h: Base"]}
{"id": "C78", "title": "Particles coupled to cavity modes follow the documented Hamiltonian", "statement": "A particle orthogonal to or along a cavity axis, with or without a pump, and a particle in two modes, apply the Hamiltonian of the documentation: the light shift U n |f|^2 and the interference of pump and cavity with the mode functions multiplying the wave function in position space. With a cavity or pump mode function that cannot be treated, the construction throws.", "quantifier": "every mode function, wave number within the momentum cutoff, parameter set, cutoff, time and state; every admissible picture", "why_tests_cant": "all wave numbers, dimensions, times and states", "anchors": ["CPPQEDelements/interactions/ParticleCavity.cc: OrthogonalToCavity, AlongCavity", "CPPQEDelements/interactions/ParticleCavity_.h", "CPPQEDelements/interactions/ParticleTwoModes.cc"]}
{"id": "C79", "title": "The coupling of a particle and two modes does not depend on the branch it is calculated by", "statement": "The coupling of a particle with two modes has the phase exp(i phi) of the same sign whichever branch of the constructor is taken, and is anti-Hermitian on the truncated momentum space.", "quantifier": "every mode-function pair, phase, cutoff and state", "why_tests_cant": "all mode functions and states", "anchors": ["CPPQEDelements/interactions/ParticleTwoModes.cc", "CPPQEDelements/interactions/ParticleCavity.cc: ParticleAlongCavity pumped"]}
{"id": "C80", "title": "Interactions may be used in any mixture of pictures", "statement": "An interaction of two free elements applies the same physical Hamiltonian whatever picture (Schroedinger, interaction, unitary interaction) each of the two elements was made in.", "quantifier": "every pair of pictures, every coupling and state", "why_tests_cant": "all pairs of pictures, times and states", "anchors": ["CPPQEDelements/interactions/JaynesCummings_.h", "CPPQEDelements/interactions/CoupledModes.cc", "CPPQEDelements/interactions/ParticleCavity.cc", "CPPQEDcore/quantumoperator/Tridiagonal.h: operator*"]}
{"id": "C81", "title": "Wigner function", "statement": "wignerFunction is linear in the density operator, rotates with the phase of the mode, gives the photon-number parity (over pi) in the origin, and the truncated dimension amounts to leaving out the higher Fock components.", "quantifier": "every density matrix, dimension, truncation and point", "why_tests_cant": "real phase-space points and all states", "anchors": ["CPPQEDcore/quantumdata/DistributionFunctions.h: wignerFunction", "CPPQEDcore/quantumdata/DistributionFunctions.cc: details::w"]}
{"id": "C82", "title": "Normalisation of the Wigner function", "statement": "The integral of wignerFunction(rho,x,y) over the plane of the quadratures x, y is the trace of rho.", "quantifier": "every density matrix and dimension", "why_tests_cant": "an integral over the plane for all states", "anchors": ["CPPQEDcore/quantumdata/DistributionFunctions.h: wignerFunction", "CPPQEDcore/quantumdata/DistributionFunctions.cc: details::w"]}
{"id": "C83", "title": "Composite systems in Master-equation trajectories", "statement": "When a composite or binary system is evolved in a Master-equation trajectory, the physical density operator (including the part of the evolution that is done exactly) follows the quantum Master equation whose Hamiltonian is the sum of those of the elements and of the couplings, and whose jump operators are those of the elements acting on their own subsystems; if the elements conserve probability, and the couplings are lossless, then its trace stays constant.", "quantifier": "every list of free elements and of interactions, every assignment of axes, every picture without exact losses, every density operator, time and storage order", "why_tests_cant": "all systems, dimensions, times and states; a test samples one", "anchors": ["CPPQEDcore/composites/Composite.tcc", "CPPQEDcore/composites/BinarySystem.cc", "CPPQEDcore/quantumtrajectory/Master.h: Master::step"]}
{"id": "C84", "title": "Binary systems and composites of two elements are interchangeable", "statement": "A BinarySystem and a Composite made of the same two free elements and the same interaction have the same derivative, exact propagation, jumps, rates, superoperators and averages, so that Master-equation trajectories of both take the same steps (provided that the interaction has no jumps where the jump numbers of C66 are affected).", "quantifier": "every pair of free elements, interaction, state, time and solver", "why_tests_cant": "all systems and states", "anchors": ["CPPQEDcore/composites/BinarySystem.cc", "CPPQEDcore/composites/Composite.tcc"]}
{"id": "C85", "title": "Norm loss between jumps equals the total jump rate", "statement": "In quantum trajectories, between the jumps the squared norm of the physical state of a composite system decreases at the rate which is the sum of the squared norms of the states after each of the jumps, that is, at the total jump rate.", "quantifier": "every composite and binary system of elements which conserve probability, with lossless couplings; every state and time", "why_tests_cant": "real states and times for all systems", "anchors": ["CPPQEDcore/composites/Composite.tcc: Hamiltonian, Exact", "CPPQEDcore/composites/BinarySystem.cc", "CPPQEDcore/quantumtrajectory/MCWF_Trajectory.h: step, coherentTimeDevelopment"]}
{"id": "C86", "title": "The homodyned mode generates homodyne detection", "statement": "A mode made with a non-zero homodyne amplitude evolves between jumps with the effective Hamiltonian, and jumps with the operators, of photon loss and absorption displaced by the local-oscillator amplitude; with zero amplitude the ordinary pumped lossy mode is made in Schrödinger picture. Averaged over the jumps, the evolution is exactly a Master equation plus a constant growth of the norm.", "quantifier": "every cutoff, set of parameters, amplitude, state and density operator", "why_tests_cant": "reals and all cutoffs", "anchors": ["CPPQEDelements/frees/HomodynedMode.cc", "CPPQEDelements/frees/HomodynedMode.h"]}
{"id": "C87", "title": "Homodyne detection does not change the average evolution", "statement": "Averaged over the measurement record, the evolution of the homodyned mode is that of the same mode without homodyne detection.", "quantifier": "every cutoff of at least 2, parameters and amplitude", "why_tests_cant": "the average over all trajectories", "anchors": ["CPPQEDelements/frees/HomodynedMode.cc: HomodynedBase"]}
{"id": "C88", "title": "The bichromatically pumped mode sees two pumps", "statement": "Within each time step the physical state of a bichromatic mode follows the Schrödinger equation of the lossy mode pumped with the two amplitudes, the second rotating with the difference of the two detunings; loss and absorption are those of the mode; with zero second amplitude the ordinary pumped lossy mode is made.", "quantifier": "every cutoff, parameters, state, beginning of the step and time", "why_tests_cant": "reals and continuous time", "anchors": ["CPPQEDelements/frees/BichromaticMode.h"]}
{"id": "C89", "title": "The second pump keeps its phase", "statement": "The phase of the second pump is a continuous function of the time along the whole trajectory, not depending on where the time steps begin.", "quantifier": "every sequence of time steps", "why_tests_cant": "step sizes are chosen adaptively", "anchors": ["CPPQEDelements/frees/BichromaticMode.h", "CPPQEDcore/quantumoperator/TridiagonalHamiltonian.h: addContribution_v", "CPPQEDcore/quantumtrajectory/MCWF_Trajectory.h: step, coherentTimeDevelopment"]}
{"id": "C90", "title": "Alternative jumping is equivalent at zero temperature", "statement": "The pumped lossy mode with alternative jumping (the rates of which are calculated from the jumped states) has at zero temperature the same Hamiltonian and jumps as the mode with ordinary jumping; none of its rates is given explicitly.", "quantifier": "every cutoff and parameters, both pictures of the ordinary mode", "why_tests_cant": "all states and times", "anchors": ["CPPQEDelements/frees/Mode_.h: PumpedLossyModeAlternative", "CPPQEDelements/frees/Mode.tcc"]}
{"id": "C91", "title": "Alternative jumping is equivalent at finite temperature", "statement": "With thermal photons, the no-jump evolution of the mode with alternative jumping loses as much probability as its jumps carry away, and is the same as that of the mode with ordinary jumping.", "quantifier": "every cutoff of at least 2, parameters, number state below the cutoff", "why_tests_cant": "all parameters", "anchors": ["CPPQEDelements/frees/Mode.tcc: PumpedLossyModeAlternative"]}
{"id": "C92", "title": "The interaction picture without exact part is consistent", "statement": "In the pumped lossy mode which is in interaction picture without an exact part, the state vector multiplied with the free evolution from time zero follows the Schrödinger equation of the pumped lossy mode, its jump is photon loss, and the averages are calculated from it.", "quantifier": "every cutoff, parameters, state and time", "why_tests_cant": "reals, continuous time", "anchors": ["CPPQEDelements/frees/Mode.cc: PumpedLossyModeIP_NoExact"]}
{"id": "C93", "title": "Rates and averages of the interaction picture without exact part", "statement": "The jump rate of this mode is the photon loss rate of the physical state, the averages displayed are those of the normalised physical state, and a resumed trajectory goes on with the same Hamiltonian.", "quantifier": "every cutoff, parameters, state and time", "why_tests_cant": "reals, continuous time", "anchors": ["CPPQEDelements/frees/Mode.cc: PumpedLossyModeIP_NoExact", "CPPQEDcore/quantumtrajectory/MCWF_Trajectory.h: stateIO"]}
{"id": "C94", "title": "Every column of a streamed reduced density operator carries the label of the element it contains", "statement": "For a ReducedDensityOperator of any rank and dimensions, the key lists, and the calculated averages contain, in the same order: the diagonal elements, then, if off-diagonals are asked for, real and imaginary parts of the elements of the strict upper triangle; the numbers of labels and averages agree.", "quantifier": "every rank, every dimension, every state, with or without off-diagonals", "why_tests_cant": "Labels and values come from two independent loop nests over multi-indices; a test checks a few dimensions only.", "anchors": ["CPPQEDelements/utils/AveragingUtils.h: ReducedDensityOperator", "CPPQEDcore/quantumdata/LazyDensityOperator.h: deflate"]}
{"id": "C95", "title": "The negativity column of a reduced density operator is the negativity of the (averaged) state", "statement": "ReducedDensityOperatorNegativity streams the elements of the density operator and, as its last column, the negativity of the partial transpose of the density operator restored from these (averaged) elements.", "quantifier": "every rank, dimensions, axes of transposition, every Hermitian state, every previous contents of allocated memory", "why_tests_cant": "It has to hold for all states and dimensions, and for whatever contents newly allocated memory has.", "anchors": ["CPPQEDelements/utils/AveragingUtils.h: ReducedDensityOperatorNegativity"]}
{"id": "C96", "title": "A collection of averages is the concatenation of its members", "statement": "averagingUtils::Collecting has the labels and averages of its members one after the other, throws exactly if a member throws, and on processing hands every member exactly its own columns.", "quantifier": "every list of members, every number of columns of each, every state and time", "why_tests_cant": "The index arithmetic of the successive ranges has to be correct for every sequence of column numbers, including members without columns.", "anchors": ["CPPQEDelements/utils/AveragingUtils.h: averagingUtils::Collecting", "CPPQEDutils/Algorithm.h: concatenate"]}
{"id": "C97", "title": "Columns, returned array and key of density-operator trajectories agree", "statement": "A trajectory based on density operators streams the columns of the system followed by exactly the entanglement measures switched on, returns the same numbers in the same order, and numbers their labels in the key consecutively in this order.", "quantifier": "every system, every combination of the switches, empty or non-empty partition", "why_tests_cant": "The three functions branch independently on the switches; all combinations for all systems have to agree.", "anchors": ["CPPQEDcore/quantumtrajectory/DensityOperatorStreamer.h: operator(), streamKey"]}
{"id": "C98", "title": "Time averages are the means over all streams after the relaxation time", "statement": "After any history of streaming, saving and loading of the state, and logging, the time averages kept by TimeAveragingMCWF_Trajectory are the arithmetic means of the averages at all streams later than the relaxation time.", "quantifier": "every history of streams, reloads and logs, every relaxation time", "why_tests_cant": "It is an invariant over all histories, including interruptions at any point.", "anchors": ["CPPQEDcore/quantumtrajectory/TimeAveragingMCWF_Trajectory.h: stream_v, readStateMore_v, writeStateMore_v, logMoreOnEnd_v"]}
{"id": "C99", "title": "The mutual information is non-negative and vanishes exactly for product states", "statement": "For every proper subset of the subsystems and every normalised density operator, mutualInformation is non-negative; it is zero if and only if the state is the product of a state of the subset and one of the rest; for pure states it is twice the entropy of either part.", "quantifier": "every rank, dimensions, selection of subsystems in any order, every density operator", "why_tests_cant": "It is an inequality (subadditivity of the entropy) over all the states of all the dimensions, with its case of equality.", "anchors": ["CPPQEDcore/quantumdata/EntanglementMeasures.h: mutualInformation, entropy", "CPPQEDcore/quantumdata/DensityOperator.h: reduce", "CPPQEDutils/TMP_Tools.h: NegatedVector"]}
{"id": "C100", "title": "The purity of the partial trace witnesses entanglement", "statement": "For every selection of subsystems and every normalised density operator, purityOfPartialTrace lies between the inverse of the dimension of the part and one, and is one exactly if the part is in a pure state; for a pure state of the whole, exactly if the state is a product.", "quantifier": "every rank, dimensions, selection of subsystems in any order, every density operator", "why_tests_cant": "It quantifies over all the states of all the dimensions.", "anchors": ["CPPQEDcore/quantumdata/EntanglementMeasures.h: purityOfPartialTrace", "CPPQEDcore/quantumdata/DensityOperator.h: purity, reduce"]}
{"id": "C101", "title": "Initial wave packets and oscillator states of a particle", "statement": "For any nonzero width, the wave packet made from an initial condition is normalised, and in the representation (position or momentum) in which it is specified its amplitudes on the grid are those of the Gaussian with the given centre, momentum and standard deviation; asking for the other representation yields the Fourier transform of the same state. The oscillator state with index n on a grid with more than n points is normalised and samples the nth eigenfunction of the harmonic oscillator around the given position with the given characteristic length; negative indices mean the ground state. The initial condition of the dynamics is the wave packet for negative HOinitn, otherwise the oscillator state, always in momentum representation.", "quantifier": "all positions, momenta, widths, resolutions, oscillator indices, and both representations", "why_tests_cant": "A test can look at a few packets; the statement ranges over real parameters, all sizes of the grid and all orders of the Hermite polynomials.", "anchors": ["CPPQEDelements/frees/Particle.cc: particle::wavePacket, particle::hoState, particle::init", "CPPQEDelements/utils/ParticleInitialCondition.h: InitialCondition"]}
{"id": "C102", "title": "Zero width means the ground state of the harmonic approximation", "statement": "A pumped particle with zero width given as its initial condition starts in the ground state of the harmonic approximation of its optical potential around the given position, whether the wave packet or the oscillator ground state is asked for.", "quantifier": "all pump strengths, recoil frequencies, pump wave numbers, sine and cosine modes, positions in a minimum of the potential", "why_tests_cant": "The property relates the state vector to the solution of an eigenvalue problem for all real parameters.", "anchors": ["CPPQEDelements/frees/Particle.cc: coherent, particle::wavePacket(const ParsPumped&), particle::hoState(const ParsPumped&)"]}
{"id": "C103", "title": "The Bloch equations integrated by the reference script are those of the simulated atom", "statement": "The script PTLA_Evolved integrates three real equations for the inversion and the dipole quadratures of a pumped, decaying two-level atom. Its trajectory is the Bloch vector of the density operator that a Master-equation simulation of PumpedTwoLevelAtom with the same parameters yields; its initial values are those of the state made by qbit::init; its fixed point has the inversion of the saturated atom. The low-saturation script PTLA_EvolvedHL deviates from the dipole equation exactly by twice the pump times the population of the excited state.", "quantifier": "all decay rates, detunings, complex pump amplitudes, initial states and times", "why_tests_cant": "Comparing the two programs on some parameter sets within a tolerance cannot exclude that a term differs that is small or zero there (a complex phase of the pump, the sign of the detuning).", "anchors": ["CPPQEDscripts/PTLA_Evolved.cc", "CPPQEDscripts/PTLA_EvolvedHL.cc", "CPPQEDelements/frees/PumpedTwoLevelAtom.cc:PumpedTwoLevelAtomSch", "CPPQEDelements/frees/Qbit.cc:init"]}
{"id": "C104", "title": "The amplitude equation integrated by the reference script is that of the simulated mode", "statement": "The script PumpedLossyMode_Evolved (with a single pump) integrates dα/dt=(-κ+iδ)α+η. The mean amplitude of the field in a Master-equation simulation of the mode with the same parameters, in any applicable picture and at any temperature, obeys the same equation up to a term proportional to the matrix elements of the density operator at the highest photon number kept; the two trajectories differ at time T by at most the damped initial difference plus T times the bound of this term.", "quantifier": "all parameters without Kerr nonlinearity, all cutoffs, temperatures, pictures, density operators and times", "why_tests_cant": "The agreement at finite temperature comes about by the cancellation of the growth of the trace, and the error made by the cutoff depends on the state; neither is visible from finitely many runs compared within a tolerance.", "anchors": ["CPPQEDscripts/PumpedLossyMode_Evolved.cc", "CPPQEDelements/frees/Mode.tcc:make", "CPPQEDcore/quantumtrajectory/Master.h:derivs"]}
{"id": "C105", "title": "The second pump of the amplitude script rotates like that of the bichromatically pumped mode", "statement": "With a second pump, the script PumpedLossyMode_Evolved drives the amplitude with the same time-dependent pump as BichromaticMode made from the same parameters.", "quantifier": "all detunings and amplitudes of the two pumps, all times", "why_tests_cant": "The difference is in the sign of one detuning, invisible whenever this is zero, as in the tests.", "anchors": ["CPPQEDscripts/PumpedLossyMode_Evolved.cc", "CPPQEDelements/frees/BichromaticMode.h: BichromaticMode"]}
{"id": "C106", "title": "The coupled-oscillator script follows the simulated Jaynes-Cummings system", "statement": "The script QbitMode_Evolved integrates two coupled complex amplitudes. Without pumps, these are the amplitudes of the states with one excitation of the qbit-mode system coupled by JaynesCummings with the same parameters (between jumps).", "quantifier": "all decay rates, detunings and complex couplings, all amplitudes", "why_tests_cant": "With real couplings, which the tests use, the two cannot be told apart.", "anchors": ["CPPQEDscripts/QbitMode_Evolved.cc", "CPPQEDelements/interactions/JaynesCummings_.h:Base"]}
{"id": "C107", "title": "The recorded jumps are the complete stochastic trajectory", "statement": "The list of instants and jump numbers which an MCWF trajectory collects and streams at its end determines the trajectory: two runs from the same initial state with the same requested steps, but different random numbers, which have the same list, have the same final state, time, and step-size data. The instants are strictly increasing, and there is an entry for each step in which a jump occurred and for no other, with the number of the jump operator that was applied.", "quantifier": "all systems with any combination of Hamiltonian, exact and Liouvillean parts, all sequences of random numbers, all series of requested steps and all patterns of rejected steps", "why_tests_cant": "Two different random sequences giving the same jumps, at steps whose lengths depend on the history of rejections, cannot be enumerated.", "anchors": ["CPPQEDcore/quantumtrajectory/MCWF_TrajectoryLogger.h:MCWF_Trajectory", "CPPQEDcore/quantumtrajectory/MCWF_TrajectoryLogger.cc:jumpOccured", "CPPQEDcore/quantumtrajectory/MCWF_Trajectory.h:performJump"]}
{"id": "C108", "title": "The summary of an MCWF trajectory describes the run and does not influence it", "statement": "Logging does not influence the trajectory. The number of steps in the summary is that of the calls of step, the number of step-backs is that of rejected trials, and the number of steps of the ODE engine is their sum; the maximal overshoots are the greatest of those reported, and the maximal deviation of the norm is taken over all trials. The summary is the same whatever the log level, and a trajectory continued from a state file continues the counts.", "quantifier": "all systems, random sequences, series of steps, patterns of rejected trials, log levels", "why_tests_cant": "The counts depend on the whole history of the run.", "anchors": ["CPPQEDcore/quantumtrajectory/MCWF_TrajectoryLogger.cc:stepBack,overshot,processNorm", "CPPQEDcore/quantumtrajectory/MCWF_Trajectory.h:manageTimeStep,step,stateIO"]}
{"id": "C109", "title": "The summary of an ensemble of MCWF trajectories", "statement": "At the end of an ensemble, the averages are the means and the maxima the greatest values over the trajectories; the histogram is made of the instants of all the jumps of all trajectories, with the requested number of bins, or without such a request with as many bins (at least two) as can have the given positive number of jumps on average; if not even two can, there is no histogram.", "quantifier": "all ensembles of at least one trajectory, all records, all numbers of bins and of jumps per bin", "why_tests_cant": "Boundary cases of the heuristic depend on the total number of jumps, which is random.", "anchors": ["CPPQEDcore/quantumtrajectory/MCWF_TrajectoryLogger.cc:EnsembleLogger::stream"]}
{"id": "C110", "title": "Log levels act as documented", "statement": "At a log level of at most 1, nothing is logged during the trajectory; above 1, the jumps; above 2, the overshoots and step-backs as well. A summary is streamed at the end if and only if the level is positive. The trajectories of an ensemble do not log during the run.", "quantifier": "all log levels, all runs", "why_tests_cant": "The level is an arbitrary integer and the lines depend on the history of the run.", "anchors": ["CPPQEDcore/quantumtrajectory/MCWF_TrajectoryLogger.h:Logger", "CPPQEDcore/quantumtrajectory/MCWF_TrajectoryLogger.cc:onEnd", "CPPQEDcore/quantumtrajectory/MCWF_Trajectory.h:makeEnsemble"]}
{"id": "C111", "title": "evolve leaves the evolved state in its argument", "statement": "If evolve(psi,sys,p) runs a single trajectory from a state vector lvalue, or the Master equation from a density operator lvalue, and no initial state file is loaded, the argument holds the final state of the trajectory when evolve returns; every other state vector or density operator of the program keeps its content. With the Master equation from a state vector, no existing object changes.", "quantifier": "every system, every sequence of steps (including step-backs and special jumps), every sequence of random numbers, every content of the memory", "why_tests_cant": "Sharing of storage between the argument, the trajectory, its cached state and its tabulated jumps is a matter of every history of steps; tests look at the streamed output only.", "anchors": ["CPPQEDcore/quantumtrajectory/Evolution_.h: evolve, evolveMaster, evolution::details::_", "CPPQEDcore/quantumtrajectory/MCWF_Trajectory.h: MCWF_Trajectory, mcwf::make", "CPPQEDcore/quantumtrajectory/Master.h: Master", "CPPQEDcore/quantumdata/StateVector.h: StateVector(StateVector&&)", "CPPQEDcore/quantumdata/DensityOperator.h: DensityOperator(DensityOperator&&)"]}
{"id": "C112", "title": "State vectors and density operators behave as values", "statement": "A program using copies, assignments from lvalues and rvalues, in-place arithmetic, moves and references of StateVectors (DensityOperators) gives each variable the value it would have with variables holding values of their own, if no variable is touched after it has been moved from or referenced away. A moved-from variable shares its elements with its successor forever.", "quantifier": "every program of any length over any number of variables, every content", "why_tests_cant": "Aliasing errors appear only for particular sequences of operations; the programs are unboundedly many.", "anchors": ["CPPQEDcore/quantumdata/StateVector.h: StateVector, operator=", "CPPQEDcore/quantumdata/DensityOperator.h: DensityOperator, operator=", "CPPQEDcore/quantumdata/ArrayBase.h: ArrayBase, operator="]}
{"id": "C113", "title": "The evolved state can always be accessed through the lvalue initial state", "statement": "After evolve has returned, the lvalue given as the initial state holds the evolved state (for single trajectories and the Master equation), whether or not the run continued a trajectory loaded from a state file.", "quantifier": "every run, with or without loading", "why_tests_cant": "Depends on the whole history of steps and loads.", "anchors": ["CPPQEDcore/quantumtrajectory/Evolution_.h: evolve", "CPPQEDcore/quantumtrajectory/MCWF_Trajectory.h: stateIO, readFromArrayOnlyArchive", "CPPQEDcore/quantumtrajectory/Master.h: stateIO, readFromArrayOnlyArchive"]}
{"id": "C114", "title": "The members of an ensemble do not interfere", "statement": "Each member of an ensemble made from a state vector starts from that state and goes through its own steps and loads exactly as a single trajectory would with its own random numbers, in whatever order the operations on the members are performed; the state vector the ensemble was made from, and all others of the program, stay unchanged.", "quantifier": "every system, number of members, interleaving of steps and loads, random numbers, and growth of the vector of members", "why_tests_cant": "The interleavings and the reallocations of the vector are unboundedly many, and shared storage would show up only in some of them.", "anchors": ["CPPQEDcore/quantumtrajectory/MCWF_Trajectory.h: mcwf::makeEnsemble", "CPPQEDutils/StochasticTrajectory.h: Ensemble", "CPPQEDcore/quantumtrajectory/Evolution_.h: evolution::details::_"]}
{"id": "C115", "title": "Monte Carlo wave-function trajectories unravel the Master equation", "statement": "Run up to a time T with independent random numbers uniform in [0,1), the mean of |psi><psi| of a Monte Carlo wave-function trajectory (with jumps, step-backs because of too large jump probability, any time-step control, ending exactly at T) equals the solution of the Master equation with the same Hamiltonian, jumps and initial condition, up to an error at most C(Dt+eps): Dt bounds the time step, eps is the relative error of the solver, and C depends only on the Hamiltonian, the jumps and T. The density operator averaged over an ensemble of independently seeded trajectories converges almost surely to that mean as the number of trajectories grows.", "quantifier": "All finite-dimensional systems with conserving Master equation, initial states, times T, steppers, limits on the jump probability, probability spaces of the random numbers, ensemble sizes.", "why_tests_cant": "A statistical statement about all sequences of random numbers and a limit of infinitely many trajectories; a test can only average a finite number of runs of a few systems.", "anchors": ["CPPQEDcore/quantumtrajectory/MCWF_Trajectory.h: MCWF_Trajectory::step, coherentTimeDevelopment, manageTimeStep, performJump", "CPPQEDcore/quantumtrajectory/MCWF_Trajectory.h: makeEnsemble, AverageTrajectories", "CPPQEDutils/Trajectory.h: advance, run", "CPPQEDcore/quantumtrajectory/Master.h: Master"]}
{"id": "C116", "title": "The elementary systems are simulated correctly by Monte Carlo trajectories in all pictures", "statement": "Monte Carlo trajectories of a lossy qbit (pumped or not, with or without phase noise), of a lossy mode at zero temperature, and of a multilevel system with decays or diffusive phase noise, in each of the quantum-mechanical pictures offered, unravel the Master equation of the documented Hamiltonian and jump operators, given an accurate stepper. The trajectories of a decaying qbit arrive at the final time with whatever random numbers, and average to the exponential decay of population and coherence.", "quantifier": "All parameters of the elements, all pictures, initial states, final times, random numbers; for systems in interaction picture, limits on the jump probability such that no step is repeated (cf. C63).", "why_tests_cant": "The statement is on the mean over infinitely many sequences of random numbers, for a continuum of parameters.", "anchors": ["CPPQEDelements/frees/Qbit_.h: qbit::make", "CPPQEDelements/frees/Mode_.h: mode::make", "CPPQEDelements/frees/MultiLevel.h: multilevel", "CPPQEDcore/quantumtrajectory/MCWF_Trajectory.h: MCWF_Trajectory", "CPPQEDcore/structure/ElementLiouvillean.h: rates, actWithJ"]}
{"id": "C117", "title": "Monte Carlo trajectories of composite systems unravel their Master equation", "statement": "For a composite or binary system of elements coupled by interactions without losses, the Monte Carlo wave-function trajectories average to the solution of the Master equation whose Hamiltonian is the sum of the Hamiltonians of all elements and interactions, and whose jumps are the jumps of all elements, each on its own subsystem. In particular: a qbit (with or without phase noise) in a lossy cavity (Jaynes-Cummings), and any number of qbits in the same cavity, with pumps, in whatever pictures in which the interaction can be constructed, including those (of the lossy elements in interaction picture) in which the Master equation itself cannot be simulated.", "quantifier": "All numbers of subsystems, their dimensions and parameters, pictures, orders of storage, initial states, final times, steppers, random numbers.", "why_tests_cant": "The statement is about the mean over infinitely many random sequences for a continuum of parameters and for any number of subsystems.", "anchors": ["CPPQEDcore/composites/Composite.tcc: composite::Base::averageLA, actWithJ_v, Hamiltonian::addContribution_v", "CPPQEDcore/composites/BinarySystem.cc: binary::Liouvillean", "CPPQEDcore/quantumtrajectory/MCWF_Trajectory.h: MCWF_Trajectory", "CPPQEDelements/interactions/JaynesCummings_.h: jaynescummings::make"]}
{"id": "C118", "title": "The statistical error of an ensemble falls as the inverse square root of the number of trajectories", "statement": "The expectation value of any operator in the density operator calculated by an ensemble of N independently seeded Monte Carlo trajectories differs from that in the solution of the Master equation by a mean square error of at most B^2/N plus a systematic part which does not depend on N and is proportional to the square of the time step and of the error of the solver, where B bounds the expectation values of the operator; the probability of an error larger than a is at most this divided by a^2. Each trajectory ends exactly at the requested time in a state of norm one. Hence with short enough steps and enough trajectories, the ensemble is as near to the Master equation as one likes, with a probability as near to one as one likes.", "quantifier": "All elements and composite systems of C116 and C117, operators, ensemble sizes, initial states, final times, steppers, limits on the jump probability, random streams.", "why_tests_cant": "A bound on the distribution of the results over all random streams; a test sees one ensemble of one size, and cannot tell a wrong rate of convergence from a fluctuation.", "anchors": ["CPPQEDcore/quantumtrajectory/MCWF_Trajectory.h: mcwf::makeEnsemble, AverageTrajectories, MCWF_Trajectory::step", "CPPQEDutils/StochasticTrajectory.h: Ensemble", "CPPQEDutils/Trajectory.h: run"]}
{"id": "C119", "title": "Master-equation trajectories solve the Master equation, and agree with ensembles of Monte Carlo trajectories", "statement": "A Master-equation trajectory started from a density operator and run to any time with any output interval arrives exactly at that time, in a Hermitian matrix of trace one, which differs from the solution of the system's Master equation by at most a constant times the error of the stepper per unit time; the constant does not depend on the initial condition, the stepper, its step sizes and the output intervals. The renormalisation and hermitisation after each step, and the changes of picture do not spoil this, even where the code's own Master equation lacks the trace-conserving term of the phase noise. Consequently the Master-equation method and the Monte Carlo method started from the same state, possibly in different pictures, agree up to the sum of their errors.", "quantifier": "All elements and composite systems with a trace-conserving Master equation (qbits, modes, networks of modes, Jaynes-Cummings system, general composites), initial density operators, final times, output intervals, steppers and step sequences.", "why_tests_cant": "The bound is over all step sequences of an adaptive stepper and all initial conditions; a test compares single runs of both methods with a tolerance fitted to those runs.", "anchors": ["CPPQEDcore/quantumtrajectory/Master.h: Master::step, Master::Master", "CPPQEDutils/Trajectory.h: run, advance", "CPPQEDcore/quantumtrajectory/MCWF_Trajectory.h: mcwf::makeEnsemble"]}
{"id": "C120", "title": "Trajectories of ordinary differential equations integrate their equation, and label their output correctly", "statement": "A trajectory made from an array of initial values and a right-hand side starts at time zero, arrives exactly at the final time, and ends in the solution of the differential equation up to a constant times the error of the stepper per unit time, whatever the step sizes and output intervals. At each time of the run, the output row has as many columns as the printed key has lines: time, last timestep, then the values in their order, each under its own label, those without a label under N/A. The constructor refuses exactly the lists with more labels than values. What is written in the state file restores the trajectory completely.", "quantifier": "All right-hand sides that are Lipschitz-continuous in the values uniformly in time and have global solutions (all linear inhomogeneous ones among them), initial arrays of any size, real or complex, label lists, steppers, final times and output intervals.", "why_tests_cant": "The error bound is over all step sequences of an adaptive stepper and all right-hand sides; the numbering must be right for each number of values and labels.", "anchors": ["CPPQEDutils/Simulated_.h: Simulated, simulated::makeBoost", "CPPQEDutils/Simulated.h", "CPPQEDutils/KeyPrinter.cc: KeyPrinter::stream", "CPPQEDutils/Trajectory.h: run, advance"]}
{"id": "C121", "title": "The scripts integrating amplitudes agree with the simulations of the quantum systems", "statement": "Run to the same time, the script integrating the Bloch equations ends in the Bloch vector of the density operator obtained by the Master-equation simulation of the same pumped two-level atom (in both classes representing it, and in each picture usable for the Master equation), up to a constant times the sum of the errors of the two steppers. The script of low saturation does so up to an additional error of at most twice the pump times the largest population of the excited state times the time elapsed. The script integrating the amplitude of the pumped lossy mode ends in the mean amplitude of the simulated mode up to the stepper errors, the initial difference, damped, and an error of at most the pump times the cutoff times the largest population of the highest level times the time. The example integrating the driven damped oscillator ends in the library's closed-form reference solution.", "quantifier": "All decay rates, detunings, pumps, cutoffs, initial amplitudes, initial density operators of the mode, final times, output intervals, steppers and step sequences.", "why_tests_cant": "The test suite compares such runs for single sets of parameters; that the agreement holds for each set, and how it is limited by saturation and cutoff, is a statement over all of them.", "anchors": ["CPPQEDscripts/PTLA_Evolved.cc", "CPPQEDscripts/PTLA_EvolvedHL.cc", "CPPQEDscripts/PumpedLossyMode_Evolved.cc", "CPPQEDutils/examples/HarmonicOscillatorComplexBlitz.cc", "CPPQEDutils/DrivenDampedHarmonicOscillator.cc: ddho::make", "CPPQEDelements/frees/PumpedTwoLevelAtom.cc: PumpedTwoLevelAtomSch", "CPPQEDcore/quantumtrajectory/Master.h: Master"]}
{"id": "C122", "title": "Density operators remain density operators", "statement": "The Master equation integrated by a Master-equation trajectory keeps positive semidefinite density operators positive semidefinite (and, if it conserves the trace, of trace one). Hence a trajectory started from a density operator arrives in a Hermitian matrix of trace one that is within a constant times the error of the stepper of a density operator, so that the probability of finding the system in any state is between zero and one up to this error. The density operator calculated by an ensemble of Monte Carlo trajectories is a density operator exactly.", "quantifier": "All Hamiltonians and jump operators, positive semidefinite initial conditions, times, steppers and step sequences, ensembles of any size, states the probability is asked for.", "why_tests_cant": "Positivity is a statement about all states the probability is asked for, and all initial conditions and generators; the framework itself never checks it.", "anchors": ["CPPQEDcore/quantumtrajectory/Master.h: Master", "CPPQEDcore/quantumtrajectory/MCWF_Trajectory.h: AverageTrajectories", "CPPQEDutils/Trajectory.h: run"]}
{"id": "C123", "title": "Master-equation trajectories at finite temperature", "statement": "With thermal photons the truncated Master equation does not conserve the trace (absorption from the highest photon number kept is cut off, and the decay belonging to vacuum absorption is missing). Nevertheless a Master-equation trajectory started from any density operator arrives exactly at the final time, in a Hermitian matrix of trace one, which is the solution of the Master equation divided by its trace, up to an error proportional to that of the stepper; this normalised solution is a density operator at all times, and obeys the Master equation with a uniform term added which makes up for the change of the trace. This holds for elements, binary systems and composites in general, in particular for pumped lossy modes, qbits in cavities and networks of modes at any temperature.", "quantifier": "All systems the physical density operator of which follows a Master equation, density operators as initial conditions, final times, steppers within the bound, driver intervals; all parameters of the systems.", "why_tests_cant": "The error bound must hold for all initial conditions, steppers and step sequences; the renormalisation in each step makes the evolution nonlinear.", "anchors": ["CPPQEDcore/quantumtrajectory/Master.h: Master", "CPPQEDelements/frees/Mode.cc: Liouvillean", "CPPQEDcore/composites/Composite.tcc: Composite", "CPPQEDutils/Trajectory.h: run"]}
{"id": "C124", "title": "Swapping two states exchanges them", "statement": "std::swap of two StateVectors (or two DensityOperators) of the same dimensions exchanges their values.", "quantifier": "all pairs of states with data of their own, in any state of the program", "why_tests_cant": "Whether moving leaves the source sharing memory with the temporary shows only in the values after the swap, for every pair of values; equal states hide it.", "anchors": ["CPPQEDcore/quantumdata/StateVector.h:StateVector(StateVector&&)", "CPPQEDcore/quantumdata/StateVector.h:operator=(StateVector&&)", "CPPQEDcore/quantumdata/DensityOperator.h:operator=(DensityOperator&&)"]}
{"id": "C125", "title": "Borrowed averages are those of the evolved state", "statement": "A system which takes its averages from another one, evaluated in another view of the same data (averagingUtils::Transferring, as the script QbitMode_Matrix does), displays the averages of the state that is being evolved, whichever evolution method is chosen and also when a run is resumed.", "quantifier": "all states, averages, evolution methods and in-place histories", "why_tests_cant": "The averages are evaluated in a reference held since construction; that it still is the evolved data must hold for every method and history.", "anchors": ["CPPQEDelements/utils/AveragingUtils.h:Transferring", "CPPQEDelements/frees/TimeIndependentMatrixHamiltonian.h:TimeIndependentMatrixHamiltonianAveraged", "CPPQEDscripts/QbitMode_Matrix.cc:main"]}
{"id": "C126", "title": "A system replaced with the matrix of its Hamiltonian evolves in the same way", "statement": "In the Schroedinger picture, TimeIndependentMatrixHamiltonian made of calculateMatrix(system)/1i has the same right-hand side as the system at all times and state vectors, and neither exact part nor jumps; for the Jaynes-Cummings system of a qbit and a mode, with all pumps and losses, this is the full non-Hermitian Hamiltonian.", "quantifier": "all parameters, dimensions, state vectors, times and orders of storage", "why_tests_cant": "Equality of two right-hand sides for every state vector, coupling and cutoff.", "anchors": ["CPPQEDscripts/QbitMode_Matrix.cc:main", "CPPQEDcore/structure/MatrixOfHamiltonian.h:calculateMatrix", "CPPQEDelements/frees/TimeIndependentMatrixHamiltonian.cc:addContribution_v"]}
{"id": "C127", "title": "1particle1mode simulates the system of the chosen configuration", "statement": "For each of the four configuration codes, the script 1particle1mode evolves the binary system whose equation of motion is that of a driven lossy mode with the detuning the user gave, the (pumped or free) particle, the full light shift U|f|^2 per photon (the shift of the detuning in the script compensates for what the interaction leaves out) and the scattering from the pump with amplitude sign(U)sqrt(UV); any other code, and configuration 2 without drive or with zero width of the wave packet, ends the program; U and V of different signs throw where scattering is involved.", "quantifier": "all parameters, dimensions, configuration codes, mode functions and wave numbers; all state vectors and times; the pictures in which the interaction is right (see C128 for the others)", "why_tests_cant": "Equality of equations of motion for every parameter set, mode function and cutoff.", "anchors": ["CPPQEDscripts/1particle1mode.cc:main", "CPPQEDelements/interactions/ParticleCavity.cc:ParticleAlongCavity", "CPPQEDelements/interactions/ParticleCavity_.h:ParticleAlongCavity", "CPPQEDelements/frees/Mode.tcc:make", "CPPQEDelements/frees/Particle.cc:make"]}
{"id": "C128", "title": "1particle1mode simulates the same system in all pictures", "statement": "The picture chosen for 1particle1mode does not change the physics: in configurations 2 and 4 the same Hamiltonian is simulated in the Schroedinger and in the interaction pictures.", "quantifier": "all parameters, mode functions and pictures", "why_tests_cant": "Quantifies over all Hamiltonians a system might simulate, all states and times.", "anchors": ["CPPQEDscripts/1particle1mode.cc:main", "CPPQEDelements/interactions/ParticleCavity.cc:ParticleAlongCavity", "CPPQEDcore/quantumoperator/Tridiagonal.tcc:operator*"]}
{"id": "C129", "title": "Ring simulates a particle in a ring cavity of two modes", "statement": "The script Ring evolves the composite of a free particle and two driven lossy modes with the detunings the user gave, coupled through the full light shifts U|f|^2 of both modes and the scattering sign(U+)sqrt(U+U-)(a+ a-^+ f+ f-^* + h.c.) between them; U+ and U- of different signs throw.", "quantifier": "all parameters, cutoffs, wave numbers and mode functions; all state vectors and times; Schroedinger picture, or opposite travelling waves in the other pictures", "why_tests_cant": "Equality of equations of motion of a tripartite system for every parameter set.", "anchors": ["CPPQEDscripts/Ring.cc:main", "CPPQEDelements/interactions/ParticleTwoModes.cc:ParticleTwoModes", "CPPQEDelements/interactions/ParticleCavity.cc:ParticleAlongCavity"]}
{"id": "C130", "title": "Ring_Evolved integrates the mean amplitudes of the two modes with a fixed scatterer", "statement": "With wave number one and zero temperature, the amplitudes integrated by Ring_Evolved solve the mean-field equations of the two modes with the particle fixed at pi*x0, and differ from the mean amplitudes in the Master equation of the two modes by no more than the initial difference and the weight of the highest levels kept, propagated with the Gronwall bound; if U+U- is negative then the right-hand side is not a number (where Ring throws).", "quantifier": "all parameters, positions, cutoffs, density operators, initial values and times", "why_tests_cant": "A bound on the difference of solutions of two differential equations, for every parameter and time.", "anchors": ["CPPQEDscripts/Ring_Evolved.cc:main", "CPPQEDelements/utils/ModeFunction.cc:modeFunction"]}
{"id": "C131", "title": "Ring_Evolved respects the wave numbers of the modes", "statement": "The amplitudes integrated by Ring_Evolved obey the equations belonging to the mode functions with the wave numbers given by the user.", "quantifier": "all wave numbers and positions", "why_tests_cant": "The equations are compared at every position of the particle.", "anchors": ["CPPQEDscripts/Ring_Evolved.cc:main", "CPPQEDelements/utils/ModeFunction.cc:modeFunction"]}
{"id": "C132", "title": "Two identical particles in a mode keep their exchange symmetry", "statement": "2particles1mode (and tutorialCompositeMultiparticle) simulate two particles interacting with one mode in the same way, of opposite signs of light shift and potential throwing; a state which is symmetric or antisymmetric under the exchange of the particles keeps its symmetry through any sequence of evolutions, jumps and renormalisations; the initial state of the scripts is symmetric, and while the symmetry lasts all averages of the two particles agree.", "quantifier": "all parameters, initial states, solutions, times, numbers and orders of jumps", "why_tests_cant": "Quantifies over all quantum trajectories.", "anchors": ["CPPQEDscripts/2particles1mode.cc:main", "CPPQEDscripts/tutorialCompositeMultiparticle.cc:main", "CPPQEDelements/interactions/IdenticalParticles.h:IdenticalParticles", "CPPQEDelements/interactions/ParticleCavity.cc:ParticleOrthogonalToCavity", "CPPQEDcore/composites/Composite.h:Base"]}
{"id": "C133", "title": "The script for one particle moves it in the potential given", "statement": "The script SingleParticle evolves the particle in the pump potential described by the parameters vClass, kPart and modePart that it accepts.", "quantifier": "every cut-off, wave number, depth of potential, kind of mode function, width of the initial packet and picture", "why_tests_cant": "A run shows some spreading packet; that the Hamiltonian lacks a term has to be compared with a formula for every depth.", "anchors": ["CPPQEDscripts/SingleParticle.cc:main", "CPPQEDelements/frees/Particle.cc:particle::make", "CPPQEDelements/frees/Particle.cc:particle::makePumped"]}
{"id": "C134", "title": "The implementation switch of the two-level atom script does not change the physics", "statement": "The script PTLA_C++QED simulates the same atom, whether it is implemented by the generic qbit element or by the specialised two-level atom (switch fullImpl).", "quantifier": "every detuning, decay rate, pump, strength of phase noise, picture and density operator", "why_tests_cant": "Agreement at some parameters says nothing on others; the default has no phase noise, where the two agree.", "anchors": ["CPPQEDscripts/PTLA_C++QED.cc:main", "CPPQEDelements/frees/Qbit.cc:qbit::make", "CPPQEDelements/frees/PumpedTwoLevelAtom.cc:PumpedTwoLevelAtomSch"]}
{"id": "C135", "title": "The output can be read back", "statement": "For every non-negative precision, every line a trajectory streams splits at white space into exactly one column per quantity (time, last step, the averages of the elements in turn, entanglement measures; or the components of the state of a trajectory of ordinary differential equations), also for negative, tiny, infinite and undefined numbers. Reading a column gives the number streamed up to half a unit of the last of the significant digits. The columns of infinite and undefined numbers differ from each other and from those of all the others.", "quantifier": "every precision >= 0, every IEEE double (denormalised, infinite, NaN included), every number of rows, elements and averages; complex states with any precision", "why_tests_cant": "Columns are separated by padding only, so that one number longer than expected makes two columns one; a sample does not contain the longest number of every precision.", "anchors": ["CPPQEDutils/FormDouble.h:FormDouble", "CPPQEDutils/FormDouble.cc:widthPositive", "CPPQEDcore/structure/ElementAveraged.cc:streamCommon", "CPPQEDutils/Trajectory.h:stream", "CPPQEDutils/Simulated_.h:stream"]}
{"id": "C136", "title": "The output can be read back for every precision accepted", "statement": "The lines of a trajectory split into one column per quantity for every value of the parameter precision that is accepted on the command line.", "quantifier": "every integer precision", "why_tests_cant": "Negative precisions are accepted without complaint, and the output looks well formed for short numbers.", "anchors": ["CPPQEDutils/FormDouble.cc:widthPositive", "CPPQEDutils/FormDouble.h:FormDouble"]}
{"id": "C137", "title": "Python reads every state a trajectory has saved", "statement": "Reading in Python a state file written by a trajectory of quantum states (state vector, density operator) returns the list of the states and of the times of all the snapshots in the file, in order, as saved, however many there are and whatever the resumptions that appended them; files holding anything else than arrays, or arrays of too high a rank, raise an exception and return nothing.", "quantifier": "every history of snapshots, every contents, dimensions and times, every maximal rank compiled in", "why_tests_cant": "Depends on the length of the file, and on the type and rank of every record.", "anchors": ["cpypyqed/io.cc:read", "cpypyqed/io.cc:doRead", "CPPQEDutils/Trajectory.h:SerializationMetadata", "CPPQEDutils/Trajectory.h:stateIO"]}
{"id": "C138", "title": "A state survives the way from Python to C++ and back", "statement": "Any numpy array that write accepts can be read back unchanged, and initialises a C++ trajectory with the same state and time; reading the file of an ensemble returns the states of all the members.", "quantifier": "every numpy array (layout, element type, rank), every time, every ensemble", "why_tests_cant": "Needs the memory layout of every possible array: slices, transposes, reversed axes.", "anchors": ["cpypyqed/io.cc:write", "cpypyqed/blitz2numpy.h:numpyToArray", "cpypyqed/io.cc:read"]}
{"id": "C139", "title": "The Python tools on quantum states compute what they say", "statement": "For states of any number of subsystems of any dimensions: normalize returns the state divided by its norm; the outer product and the dyad are the products of amplitudes; reduce sums over exactly the indices named, whatever their order; diagonal expectation values are expectation values of the diagonal operator on the subsystems named; acting with matrices on distinct subsystems is the action of the tensor product of the matrices with identities; the Fourier transform is the unitary transformation between grids centred at zero, its inverse is the inverse, and on grids of 2^m points it is the transformation of the C++ programs.", "quantifier": "every state, rank, dimensions, list of subsystems, operators; every number of points", "why_tests_cant": "Axes are named by position, and positions shift as axes are summed over; the number of orderings grows as a factorial.", "anchors": ["cpypyqed/tools/quantumstate.py:QuantumState", "cpypyqed/tools/quantumstate.py:StateVector", "cpypyqed/tools/quantumstate.py:reduce", "cpypyqed/tools/quantumstate.py:expvalue", "cpypyqed/tools/quantumstate.py:fft"]}
{"id": "C140", "title": "Expectation values in Python", "statement": "expvalue returns <psi|A|psi> for every operator, reducesquare returns the reduced density matrix as documented, actwith applies the operators given to the subsystems given.", "quantifier": "every state, operator and list of subsystems", "why_tests_cant": "Real symmetric operators, the usual test cases, do not tell an operator from its transpose.", "anchors": ["cpypyqed/tools/quantumstate.py:expvalue", "cpypyqed/tools/quantumstate.py:reducesquare", "cpypyqed/tools/quantumstate.py:actwith", "cpypyqed/tools/operators.py:destroy"]}
{"id": "C141", "title": "Python and C++ agree on initial conditions", "statement": "Wave packets, coherent states with real amplitude, Fock states and ladder operators made in Python are those of the C++ elements with the same parameters; a momentum eigenstate has its one amplitude at the site of that wave number.", "quantifier": "every parameter, every dimension", "why_tests_cant": "Compares two independently written formulas on all the grids, with their off-by-one conventions.", "anchors": ["cpypyqed/tools/initialconditions.py:gaussian", "cpypyqed/tools/initialconditions.py:coherent", "cpypyqed/tools/initialconditions.py:fock", "cpypyqed/tools/initialconditions.py:momentum_eigen", "cpypyqed/tools/operators.py:create", "CPPQEDelements/frees/Particle.cc:wavePacket", "CPPQEDelements/frees/Mode.cc:coherent"]}
{"id": "C142", "title": "Initial conditions in Python for all parameters", "statement": "coherent accepts complex amplitudes as the C++ function does, and a momentum outside the grid is refused.", "quantifier": "every complex amplitude, every integer momentum", "why_tests_cant": "Python's negative indices make wrong parameters look right.", "anchors": ["cpypyqed/tools/initialconditions.py:coherent", "cpypyqed/tools/initialconditions.py:momentum_eigen"]}
{"id": "C143", "title": "Python reads the output of trajectories", "statement": "For the output of a trajectory with at least two data lines, load_evs returns a table with one row per line and one column per quantity, equal to the numbers streamed up to half a unit of the last digit, in order, and the comments before the first data line; load_jumps returns all the jump times and kinds of a single run with at least two jumps.", "quantifier": "every output: any comments, any number of rows, columns and jumps, any non-negative precision", "why_tests_cant": "The separation of comments and data depends on all the lines of the file.", "anchors": ["cpypyqed/tools/io.py:load_evs", "cpypyqed/tools/io.py:evs_header", "cpypyqed/tools/io.py:load_jumps", "CPPQEDutils/Trajectory.h:run"]}
{"id": "C144", "title": "Python reads every output", "statement": "The functions of C143 return tables for every output a trajectory can write: one line, one jump, resumed trajectories, trajectories of complex variables.", "quantifier": "every output", "why_tests_cant": "The failing files are short or rare ones.", "anchors": ["cpypyqed/tools/io.py:load_evs", "cpypyqed/tools/io.py:load_jumps"]}
{"id": "C145", "title": "The mode of the guide does what the guide says", "statement": "The modes of the guide to implementing new elements, in both designs and in both pictures, can be constructed with every set of parameters and every cutoff. They simulate the documented non-Hermitian Hamiltonian and jump operators in the Monte Carlo method, the ones in Schrödinger picture also in the Master equation. Their jump rates are those of the jump operators. Of their averages, those of the ladder operator are right, and the averages of the interaction with correlations are the four correlations of the quadratures.", "quantifier": "every set of parameters, cutoff, state, time, both designs, both pictures", "why_tests_cant": "All states, times and cutoffs.", "anchors": ["CPPQEDcore/examples/ExampleMode.cc:basic::PumpedLossyMode", "CPPQEDcore/examples/ExampleMode.cc:hierarchical::PumpedLossyModeIP", "CPPQEDcore/examples/ExampleModeImpl.cc:aop", "CPPQEDcore/examples/ExampleInteraction.cc:InteractionX_X_Correlations", "CPPQEDcore/doc/structureGuide.markdown"]}
{"id": "C146", "title": "The guide is right about the rest, too", "statement": "The column '<number operator>' of the modes of the guide displays the photon number. The X-X interaction of the guide describes g(a+a†)(b+b†), and works correctly with free elements in either picture. The mode in interaction picture can be used in the Master equation, as its applicableInMaster claims.", "quantifier": "every set of parameters, cutoff, state, time, both designs, all combinations of pictures", "why_tests_cant": "All states, times and cutoffs.", "anchors": ["CPPQEDcore/examples/ExampleMode.cc:average_v", "CPPQEDcore/examples/ExampleMode.h:applicableInMaster_v", "CPPQEDcore/examples/ExampleInteraction.cc:InteractionX_X", "CPPQEDcore/examples/ExampleModeMain.cc:main", "CPPQEDcore/doc/structureGuide.markdown"]}
{"id": "C147", "title": "Subsystems that are not coupled evolve independently", "statement": "If the interactions of a composite system have no Hamiltonian (as the bare structure::Interaction used in the script FourModes), then from a product state the composite system evolves into the product of the states of the subsystems simulated alone, for all times of a step and in whatever pictures the subsystems are; a quantum jump of a subsystem changes only the factor of that subsystem, and in the same way as when the subsystem is simulated alone. In particular, the four modes of FourModes follow each its own Schrödinger equation.", "quantifier": "every number of subsystems of any dimensions and pictures, every product state, time and jump; for FourModes every set of parameters", "why_tests_cant": "The factorisation must hold for every number of subsystems and every product state.", "anchors": ["CPPQEDscripts/FourModes.cc:main", "CPPQEDcore/structure/Interaction.h:Interaction", "CPPQEDcore/composites/Composite.tcc:addContribution_v"]}
{"id": "C148", "title": "The scripts of atoms and cavities simulate the systems they are about", "statement": "tutorialBinary and QbitMode_C++QED simulate a driven lossy two-level atom and a driven lossy mode with Jaynes-Cummings coupling, in all the pictures (with phase noise: in the interaction pictures); 6qbits and its generalisation to n qbits simulate the Tavis-Cummings model in all the pictures; Optomechanics in Schrödinger picture simulates the two modes with the radiation pressure -u n (b+b†); Raman and CavityRaman without dephasing simulate the lambda atom with its drives and decays, in CavityRaman with one transition coupled to the mode. None of them throws.", "quantifier": "every set of parameters, all cutoffs, pictures, numbers of qbits, times, states", "why_tests_cant": "All parameters, cutoffs, and numbers of qbits.", "anchors": ["CPPQEDscripts/QbitMode_C++QED.cc:main", "CPPQEDscripts/tutorialBinary.cc:main", "CPPQEDscripts/Optomechanics.cc:main", "CPPQEDscripts/Raman.cc:main", "CPPQEDscripts/CavityRaman.cc:main", "CustomScriptsExample/6qbits.cc:main"]}
{"id": "C149", "title": "The pictures chosen on the command line do not influence what the scripts of atoms and cavities simulate", "statement": "QbitMode_C++QED with phase noise and Optomechanics simulate the same Hamiltonian in whatever picture is chosen on the command line.", "quantifier": "every set of parameters, all cutoffs, all the pictures", "why_tests_cant": "All parameters and cutoffs, all the Hamiltonians which might be simulated.", "anchors": ["CPPQEDscripts/QbitMode_C++QED.cc:main", "CPPQEDscripts/Optomechanics.cc:main", "CPPQEDelements/frees/Qbit.cc:make"]}
{"id": "C150", "title": "A group of subsystems not coupled to the rest is not influenced by it", "statement": "When a composite system is simulated by a Master-equation trajectory, and some of its subsystems interact only with each other (the interactions between them and the rest have no Hamiltonian), then the reduced density operator of these subsystems, as given by the partial trace, is at any time what the Master-equation trajectory of these subsystems alone gives, when started from the reduced initial density operator: up to an error proportional to that of the stepper, it depends neither on the presence, nor on the parameters, nor on the initial state of the rest, even if the rest is initially entangled with the group.", "quantifier": "All composites of any number of elements and interactions, all groups of subsystems in any order, all parameters for which the elements conserve the probability, all initial density operators, all times, all accurate steppers", "why_tests_cant": "Entangled initial states, groups, and parameters of the rest form a continuum, and the comparison must hold at every time.", "anchors": ["CPPQEDcore/composites/Composite.tcc:Composite", "CPPQEDcore/quantumtrajectory/Master.h:Master", "CPPQEDcore/quantumdata/LazyDensityOperator.h:partialTrace", "CPPQEDcore/structure/Interaction.h:Interaction"]}
{"id": "C151", "title": "Two particles in the modes of a ring cavity", "statement": "The script 2ParticlesRingCavitySine in Schrödinger picture simulates a lossy mode of the detuning given by the user and two identical particles, each in the potential U alphasquare |f_p|^2 of a second mode in a coherent state, with the full light shift U cos^2(kx) per photon and the scattering U sqrt(alphasquare)(a cos(kx) f_p^* + h.c.); a negative alphasquare throws. The initial state of bosons is normalised, symmetric and not null whatever the two states are, that of fermions in different states is normalised and antisymmetric, and in any quantum trajectory the state keeps its symmetry. The displayed <P1P2> is the expectation value of the product of the two momenta.", "quantifier": "all parameters of the mode, the particles and the coupling; all initial states; all sequences of evolutions, jumps and renormalisations; all states of two particles for the average", "why_tests_cant": "The equation of motion and the symmetry have to hold for all parameters, all times and all histories of jumps.", "anchors": ["CustomScriptsExample/2ParticlesRingCavitySine.cc:main", "CustomElementsExample/interactions/MomentumCorrelation.cc:MomentumCorrelation::average_v", "CPPQEDelements/interactions/ParticleCavity.cc:ParticleAlongCavity"]}
{"id": "C152", "title": "Fermions have an initial state", "statement": "Given the initial states of two fermions, the script 2ParticlesRingCavitySine either starts from their normalised antisymmetric state or refuses to start.", "quantifier": "all pairs of initial states", "why_tests_cant": "Which pairs of states lead to a null vector is a statement about all states.", "anchors": ["CustomScriptsExample/2ParticlesRingCavitySine.cc:main", "CPPQEDcore/quantumdata/StateVector.h:renorm"]}
{"id": "C153", "title": "The ring cavity of the tutorial", "statement": "The script tutorialCompositeRing evolves in all pictures the composite of a particle and two counter-propagating modes, the second of them pumped, with the light shifts and the scattering between the modes of the script Ring, the detunings of the modes being those given by the user plus the light shift; light shifts of opposite sign throw.", "quantifier": "all parameters, all pictures", "why_tests_cant": "The equation of motion has to hold for all parameters and states.", "anchors": ["CPPQEDscripts/tutorialCompositeRing.cc:main", "CPPQEDelements/interactions/ParticleTwoModes.cc:ParticleTwoModes"]}
{"id": "C154", "title": "Free relaxation of a mode and of a qbit", "statement": "In Master-equation trajectories of a lossy mode that is not pumped, the photon number streamed at the time T is, at zero temperature, the initial one times exp(-2 kappa T) and the amplitude the initial one times exp((i delta-kappa) T), whatever the cutoff, up to the error of the stepper. At finite temperature the photon number does not exceed nTh+exp(-2 kappa T)(n-nTh), and falls short of it by not more than nTh*cutoff^2 times the highest population the highest level has had. The population of the excited state and the dipole moment of a qbit not pumped decay in the same way.", "quantifier": "all parameters, cutoffs, initial density operators, times, steppers with a given error, all pictures admitted in the Master equation", "why_tests_cant": "The law has to hold for all states, cutoffs and times; a test compares at a few of them, and with a tolerance.", "anchors": ["CPPQEDelements/frees/Mode.cc: Averaged, Liouvillean", "CPPQEDelements/frees/Mode.tcc: make", "CPPQEDelements/frees/Qbit.cc: Averaged, make", "CPPQEDcore/quantumtrajectory/Master.h: Master"]}
{"id": "C155", "title": "Rabi oscillations", "statement": "A Jaynes-Cummings system without pumps and losses, made with any detunings, coupling and pictures, started with the atom excited and n photons in the mode, is at every later time in the superposition given by the formula of Rabi of excited atom with n photons and ground-state atom with n+1 photons, exactly and with whatever cutoff larger than n+1: the probabilities oscillate with the generalised Rabi frequency, sum up to one, and no other state gets populated. In Master-equation trajectories the density operator is the projector on this state up to the error of the stepper.", "quantifier": "all couplings, detunings, photon numbers, cutoffs larger than n+1, times, all pairs of pictures both or none of which is the Schrödinger picture", "why_tests_cant": "The law has to hold at all times and for all parameters and cutoffs; a test compares at a few of them, and with a tolerance.", "anchors": ["CPPQEDelements/interactions/JaynesCummings_.h: jaynescummings::Base", "CPPQEDelements/frees/Qbit.cc: make", "CPPQEDelements/frees/Mode.tcc: make", "CPPQEDcore/composites/BinarySystem.h: binary", "CPPQEDcore/quantumtrajectory/Master.h: Master"]}
{"id": "C156", "title": "A lossy mode relaxes to the thermal state", "statement": "The lossy mode that is not pumped, evolved by the Master equation at any temperature from any initial density operator, approaches the thermal state: at time T the populations and the streamed number of photons are those of the Planck distribution up to an error that falls as exp(-2 kappa T), and the coherence between the levels i and j falls as exp(-kappa|i-j|T), with explicit constants depending on the cutoff only, apart from the error of the stepper and an effect of the cutoff that is proportional to the population of the highest level. Started from populations below a multiple of the Boltzmann factors (as the vacuum) the effect of the cutoff is exponentially small in the number of levels, for times up to one over that effect. At zero temperature the mode decays into the vacuum without any effect of the cutoff.", "quantifier": "every set of parameters without pump and Kerr terms, all cutoffs, all initial density operators, all times, all pictures in which the Master equation is applicable, all steppers of given accuracy", "why_tests_cant": "The approach to equilibrium is a statement about all initial states and all times, with rates that do not depend on the cutoff.", "anchors": ["CPPQEDelements/frees/Mode.cc: Averaged, Liouvillean", "CPPQEDelements/frees/Mode.tcc: make", "CPPQEDcore/quantumtrajectory/Master.h: Master", "Testing/testdriver.py: final_temperature"]}
{"id": "C157", "title": "A key of a test's configuration is the first definition along its imports", "statement": "When a test asks for a key of a section, it gets the value that the section itself defines, otherwise that of the imported section and so on along the chain of imports, except that keys whose names end in _local are not inherited; the answer does not depend on what was asked before, although each query rewrites the configuration. A missing key gives the default, or a failure if it is required. If the imports form a cycle or lead to a section that does not exist, every query of the section fails.", "quantifier": "all configurations as configparser reads them, all histories of queries, all sections, keys and defaults", "why_tests_cant": "the configuration is rewritten by each query, so the claim ranges over all histories of queries and all graphs of imports", "anchors": ["Testing/testdriver.py: OptionsManager, get_option, _import_section", "Testing/testdriver.py: OutputManager, runmodes"]}
{"id": "C158", "title": "A test of runs calls the script once for each run mode with the options of the configuration", "statement": "A test that runs a script calls it once for each run mode of the test, in their order, until the first call that fails, and succeeds exactly if all succeed; the command has the extra options, the options of the setup, of the test and of the run mode in alphabetical order of their keys, the run mode unless generic, and the output file; the old output files are deleted before. A test of continuation does this with the options of the first run and then, if all have succeeded, without deleting anything with those of the second run.", "quantifier": "all configurations, run modes, options, and all behaviours of the system calls", "why_tests_cant": "the options come from any number of keys with any names, and a call may fail at any point", "anchors": ["Testing/testdriver.py: Runner, run, _extend_opts, _build_commandline", "Testing/testdriver.py: OutputManager, clean", "Testing/testdriver.py: GenericContinuer, continued_run"]}
{"id": "C159", "title": "The verification of output passes exactly if all numbers agree to the tolerance", "statement": "A full verification passes exactly if in all run modes of the section the files of trajectories and of states exist and agree: two tables with at least two lines and two columns pass exactly if they have the same numbers of lines and columns and each pair of numbers differs by at most 1e-8 plus 1e-5 times the expected one; two state files with arrays of the same shape pass exactly if all amplitudes and times agree in the same sense.", "quantifier": "all configurations, all texts and state files", "why_tests_cant": "the claim ranges over all contents of the files", "anchors": ["Testing/testdriver.py: Verifier, run, _verify_ev, _verify_state, _differ", "Testing/testdriver.py: load_sv"]}
{"id": "C160", "title": "The verification accepts only equal trajectories", "statement": "A verification passes only if the files of both tests hold the same data, whatever the key verify.", "quantifier": "all configurations, all texts and state files", "why_tests_cant": "the violations appear only for special shapes of files and values of the key", "anchors": ["Testing/testdriver.py: Verifier, run, _verify_ev, _verify_outcome"]}
{"id": "C161", "title": "The comparisons and the tests of compilation pass exactly if what they name holds", "statement": "A comparison of trajectories passes exactly if for all the trajectories it names, in all their run modes it uses, in each named column, the file is there with enough columns and the deviation from the same column of the reference trajectory in its first run mode is below the acceptable one of that column. A comparison of states passes exactly if the measure of the states is below the acceptable one for all of them; the measure of the comparison of temperatures with parameter 4 is the distance from the thermal state. A test of compilation without expected error passes exactly if all dependencies and the target compile.", "quantifier": "all configurations, histories of queries, output files, functions of measure and behaviours of the compiler", "why_tests_cant": "the loops range over any number of trajectories, modes and columns, with failures collected to the end", "anchors": ["Testing/testdriver.py: TrajectoryComparer, run, _get_data, _get_reference, _get_eps, _get_columns", "Testing/testdriver.py: StateComparer, run, final_temperature", "Testing/testdriver.py: CompileTarget, run"]}
{"id": "C162", "title": "The keys of the comparisons and of the tests of compilation do what their documentation says", "statement": "With the key error a test of compilation passes if the compilation fails with the given text; the key runmodes_<test> restricts a comparison to the given run modes; a comparison that passes has compared something; parameters of the comparison of states are optional; the comparison of temperatures accepts the thermal state of the given temperature.", "quantifier": "all configurations, output files, temperatures and behaviours of the compiler", "why_tests_cant": "the violations hold for every behaviour of the compiler and every output", "anchors": ["Testing/testdriver.py: CompileTarget, run", "Testing/testdriver.py: OutputManager, _filter_runmodes", "Testing/testdriver.py: StateComparer, run, final_temperature", "Testing/compilefail/fail.conf: error"]}
{"id": "C163", "title": "Closed systems conserve energy and overlaps, and observables obey Heisenberg's equation", "statement": "Between jumps, the matrix element of any observable between two physical states of a simulated system changes at the rate of Heisenberg's equation with the Hamiltonian the system simulates. In a composite of any elements and interactions without losses, after any number of steps of any lengths and in whatever pictures the elements are, the expectation value of the energy and the norm are those of the initial state, and two states keep their overlap. This holds for the Jaynes-Cummings system, for coupled modes and for a particle in a cavity with any pumps. A particle in a light shift keeps the distribution of its momenta modulo twice the wave number of the mode, and a free particle keeps the distribution of its momenta.", "quantifier": "all simulated systems, observables, parameters, pictures, initial states, and sequences of steps", "why_tests_cant": "energy is conserved only if the Hamiltonian part, the exact part and their times fit together, for all parameters and arbitrarily many steps", "anchors": ["CPPQEDcore/composites/BinarySystem.cc: addContribution_v, actWithU_v", "CPPQEDcore/composites/Composite.tcc: addContribution_v, actWithU_v", "CPPQEDelements/interactions/JaynesCummings_.h: JaynesCummings", "CPPQEDelements/interactions/CoupledModes.cc: CoupledModes", "CPPQEDelements/interactions/ParticleCavity.cc: ParticleAlongCavity", "CPPQEDelements/frees/Particle.cc: Particle, ParticleSch"]}
{"id": "C164", "title": "The generated specialisations of the application of tridiagonal operators agree with the generic one", "statement": "For every rank, the C++ source that the code generator prints is a definition of the application of operators of that rank which uses only ranges it declares, and which, for every operator and state vector of that rank, does the same to the derivative as the generic recursive application, that is, adds the product of the matrix with the state.", "quantifier": "all ranks from 1, all operators, states and derivatives", "why_tests_cant": "the generated source grows exponentially with the rank, and each of the 3^rank statements has its own combination of ranges", "anchors": ["CPPQEDcore/quantumoperator/applyImpl/generate.py: recurse", "CPPQEDcore/quantumoperator/Tridiagonal.h: apply", "CPPQEDcore/quantumoperator/Tridiagonal.tcc: apply, doApply, fillRanges"]}
{"id": "C165", "title": "The recorded quantum jumps account for the conserved quantities", "statement": "In every Monte Carlo trajectory of a system whose Hamiltonian conserves a quantum number and whose jumps change it by given amounts (unpumped lossy modes and qbits at zero temperature, with or without phase noise, the Jaynes-Cummings system, modes coupled in rotating-wave approximation, any number of qbits in a cavity, composites in general), whatever the random numbers, the time steps and the step-backs, each basis state present in the state has the quantum number of one present initially plus the sum of the changes in the recorded jumps. In particular, a trajectory starting with at most n quanta records at most n losses, and from exactly n quanta exactly as many are left as were not lost.", "quantifier": "all parameters of the systems, initial states, sequences of random numbers and of time steps, limits of the step control, numbers of steps", "why_tests_cant": "the trajectories are random and of unlimited length; a lost or doubly counted jump or a leak of the truncated operators would show only in rare histories", "anchors": ["CPPQEDcore/quantumtrajectory/MCWF_Trajectory.h: MCWF_Trajectory::step, performJump", "CPPQEDcore/quantumtrajectory/MCWF_TrajectoryLogger.cc: Logger::jumpOccured", "CPPQEDelements/frees/Mode.cc: Liouvillean", "CPPQEDelements/frees/Qbit.cc: sigmaJump", "CPPQEDelements/interactions/JaynesCummings.cc: JaynesCummings"]}
{"id": "C166", "title": "State files are read back whatever the runs that appended to them, with and without compression", "statement": "Any number of runs of the same build of the library, with or without bzip2 support, append any states to a state file; reading the file then gives all of them in the order of writing. A file begun without compression is read and continued correctly by any build, it is never taken for a compressed one. Opening a missing file is an exception, and so is reading a file with an archive that is rejected. A state written from Python replaces what was in the file.", "quantifier": "every number of runs, numbers and contents of records (also none), every earlier content of an overwritten file; every bzip2 codec with the stated properties", "why_tests_cant": "The decision is made anew on each opening, from the content; histories are unbounded.", "anchors": ["CPPQEDutils/Trajectory.cc: isbz2, openStateFileReading, openStateFileWriting", "CPPQEDutils/Trajectory.h: readViaSStream, writeViaSStream", "cpypyqed/io.cc: read, write"]}
{"id": "C167", "title": "State files can be used by builds with and without compression in turn", "statement": "A state file to which builds with and without support of compression have appended in any order can be read by any of them, and gives all the states.", "quantifier": "every history of uses by the two kinds of builds", "why_tests_cant": "Needs every order of uses of two builds.", "anchors": ["CPPQEDutils/Trajectory.cc: isbz2, openStateFileReading, openStateFileWriting"]}
{"id": "C168", "title": "A killed run can be resumed without repeating or losing rows even if its states were buffered", "statement": "If a run is killed, the restarted process goes on from the last state written, and the trajectory file finally has each row once; if no state can be found, the restart is refused.", "quantifier": "every crash point, every number of states that have reached the disk, every length", "why_tests_cant": "Crash points and the state of the buffers cannot be enumerated by tests.", "anchors": ["CPPQEDutils/Trajectory.h: trajectory::run", "CPPQEDutils/Trajectory.cc: openStateFileReading"]}
{"id": "C169", "title": "The statistics of photons under losses", "statement": "In a Master-equation trajectory of a lossy mode not pumped at zero temperature, the distribution of the number of photons at the time T is the initial one with every photon lost independently with the probability 1-exp(-2*kappa*T), with whatever number of levels kept and up to a constant times the error of the stepper. Accordingly, the variance of the photon number streamed is exp(-4*kappa*T) times the initial one plus exp(-2*kappa*T)(1-exp(-2*kappa*T)) times the initial number of photons.", "quantifier": "all cutoffs, loss rates, detunings, pictures, initial density operators, times and adaptive steppers of whatever error", "why_tests_cant": "The tests compare a few columns of two runs with an exponential, and the variance of an initial Fock state only from the fiftieth row on; a distribution for every initial density operator and time can only be proved", "anchors": ["CPPQEDelements/frees/Mode.cc: Averaged::average_v, Averaged::process_v, mode::make", "CPPQEDcore/quantumtrajectory/Master.h: Master", "Testing/physics/testdriver.conf: ph_Decay, ph_DecayFock"]}
{"id": "C170", "title": "Multilevel systems without drives follow the rate equations", "statement": "In Master-equation trajectories of a multilevel system without drives, the populations are, up to a constant times the error of the stepper, those of the classical rate equations with the rate 2*gamma for each decay, and each coherence decays with the sum of the widths of its two levels and rotates with the difference of their detunings, independently of all the other elements.", "quantifier": "all numbers of levels, detunings, lists of decays (branching, chains, cycles, several decays between the same levels), initial density operators, times and adaptive steppers", "why_tests_cant": "The graphs of decays and the initial states form infinite families, and the equality is to hold at all times", "anchors": ["CPPQEDelements/frees/MultiLevel.h: PumpedLossyMultiLevelSch, LiouvilleanRadiative, HamiltonianSch", "CPPQEDcore/quantumtrajectory/Master.h: Master"]}
{"id": "C171", "title": "Damped vacuum Rabi oscillation", "statement": "A Jaynes-Cummings system with losses of the atom and of the mode, at zero temperature and without pumps, whose Master equation is started with one excitation shared by the atom and the mode in whatever superposition (or, with some probability, none), has at every later time the excitation in the atom and in the mode with amplitudes obeying the equations of two coupled damped classical oscillators, while the missing probability is in the state without excitation, with whatever cutoff of at least two, up to the error of the stepper.", "quantifier": "all couplings, detunings, decay rates, cutoffs of at least two, initial amplitudes of norm not larger than one, times, and all pairs of pictures which are allowed in Master equations, both or none of which is the Schrödinger picture", "why_tests_cant": "The law has to hold at all times and for all parameters, initial amplitudes and cutoffs; a test compares at a few of them, and with a tolerance.", "anchors": ["CPPQEDelements/interactions/JaynesCummings_.h: jaynescummings::Base", "CPPQEDelements/frees/Qbit.cc: make", "CPPQEDelements/frees/Mode.tcc: make", "CPPQEDcore/composites/BinarySystem.h: binary", "CPPQEDcore/quantumtrajectory/Master.h: Master"]}
{"id": "C172", "title": "A photon in a network of lossy modes", "statement": "A composite of any number of lossy modes at zero temperature and without pumps, which exchange photons through links of the rotating-wave kind, whose Master equation is started with one photon in whatever superposition of the modes (or, with some probability, none), has at every later time the photon in the modes with amplitudes obeying the equations of coupled damped classical oscillators, while the missing probability is in the vacuum, whatever the cutoffs of at least two, up to the error of the stepper; the probability of the photon being there decreases only by the losses of the modes in which it is.", "quantifier": "all numbers of modes, graphs of links and their couplings, detunings, decay rates, cutoffs of at least two, initial amplitudes of norm not larger than one, times, and all pictures which are allowed by the links and in Master equations", "why_tests_cant": "The law has to hold for every graph and number of modes, at all times and for all parameters; a test compares one network at a few times.", "anchors": ["CPPQEDelements/interactions/CoupledModes.cc: Base", "CPPQEDelements/frees/Mode.tcc: make", "CPPQEDcore/composites/Composite.tcc: Composite", "CPPQEDcore/quantumtrajectory/Master.h: Master"]}
{"id": "C173", "title": "Groups of parameters are told apart by numbered suffixes", "statement": "Each class of parameters (mode, qbit, spin, particle, multilevel, the interactions, the driver) registers its parameters on a table with a given suffix. If the suffixes are numbers, any number of such groups, of the same or of different kinds, can be put on one table, provided that those with the same suffix have no name in common: no registration throws, every parameter has its default and no other parameter of the table is changed. In general a sequence of registrations succeeds exactly if no name is taken twice, titles and the no_ forms of switches included.", "quantifier": "every table made by registrations, every sequence of groups with suffixes", "why_tests_cant": "there are arbitrarily many combinations of groups and suffixes; the scripts and tests use a handful", "anchors": ["CPPQEDutils/Pars.h: add, addTitle", "CPPQEDutils/Pars.cc: addTitle", "CPPQEDelements/frees/ParsMode.cc: Pars, ParsPumped, ParsLossy, ParsPumpedLossy", "CPPQEDelements/frees/ParsQbit.h: ParsLossyPhaseNoise", "CPPQEDcore/quantumtrajectory/Evolution_.h: Pars", "CPPQEDutils/Trajectory.h: Pars"]}
{"id": "C174", "title": "Groups with different suffixes do not collide", "statement": "Two groups of parameters with different suffixes can be put on one table, whatever the suffixes are, and groups of different kinds can be put on one table with the same suffix.", "quantifier": "every pair of groups, every pair of suffixes", "why_tests_cant": "the collisions need particular suffixes or combinations", "anchors": ["CPPQEDelements/frees/ParsMode.cc: Pars", "CPPQEDcore/quantumdata/DistributionFunctions.cc: ParsFunctionScan", "CPPQEDelements/frees/Spin.cc: Pars", "CPPQEDelements/frees/ParsQbit.h: ParsLossy"]}
{"id": "C175", "title": "A free particle returns periodically", "statement": "A particle without pump made by its maker function, in each picture, is simulated in Master-equation trajectories such that the element of the density matrix between two plane waves collects the difference of their phases exp(-i omrec k^2 T). With at least two grid points, after each multiple of 2 pi/|omrec| the density operator, and so the displayed momentum, position and their squares, are those of the initial state whatever it was, and after each odd multiple of pi/|omrec| the density matrix in position representation is the initial one displaced by half of the box. The deviation is at most a constant times the error of the stepper.", "quantifier": "every finesse below 63, recoil frequency, picture, initial density operator, stepper and its error, number of revivals, step sizes and lengths of the display intervals, pair of plane waves and of grid points", "why_tests_cant": "A test simulates one wave packet for one time; that every state returns at every multiple of the period, in all pictures and with all step histories, is a statement about all initial density operators and all trajectories.", "anchors": ["CPPQEDelements/frees/Particle.cc: mainDiagonal, Particle, ParticleSch, make, Averaged", "CPPQEDcore/quantumtrajectory/Master.h: Master"]}
{"id": "C176", "title": "A comparison with a reference function passes exactly when every compared column follows its law", "statement": "The test class that compares trajectories with a reference function passes if and only if the section of the test names trajectories and, for each of them, for each of its run modes that are not filtered out, and for each compared column, the named law (exponential decay, free motion, free spreading) with the parameters configured for that column in the section of the trajectory deviates from the data by less than the acceptable deviation of that column. Parameters given as a list belong to the columns one by one; a tuple holds for all of them. A missing or unknown law, missing parameters, too few parameters, or missing data never pass.", "quantifier": "all configurations (with imports of sections), all lists of trajectories, run modes, columns, parameters and data, all interpolations and quadratures", "why_tests_cant": "A test runs a handful of configurations; that no combination of sections, imported options, columns and parameters lets a wrong trajectory pass is a statement about all of them.", "anchors": ["Testing/testdriver.py: FunctionComparer, TrajectoryComparer, exponential, FreeParticleX, FreeParticleVarX"]}
{"id": "C177", "title": "Vectors of parameters are read as they were written", "statement": "The text that is written for a vector of real or complex numbers (one for each level, say) is read back as the same vector, each component as precise as it was written, and nothing of what follows on the command line is consumed. More generally every text of the form [x0,x1,...], with white space between any two of its elements, and with complex components given as x, (x) or (x,y), is read as the vector of these components.", "quantifier": "all numbers of components, all vectors, all texts of them with any white space, any text following", "why_tests_cant": "Tests write and read a few vectors; that no number of components, no mixture of forms of complex numbers and no white space breaks the reading is a statement about all texts.", "anchors": ["CPPQEDutils/IO_Manip.h: IO_Manipulator, outputTinyVector, inputTinyVector", "CPPQEDelements/frees/ParsMultiLevel.h: ComplexPerLevel, RealPerLevel"]}
{"id": "C178", "title": "Text that is not a vector is refused", "statement": "A text given for a parameter that is a vector is accepted only if it consists of an opening bracket, the components separated by commas, and a closing bracket; a forgotten bracket or another separator is an error.", "quantifier": "all texts, all numbers of components", "why_tests_cant": "A test tries a few malformed texts; which texts are accepted is a question about all of them, and the answer depends on a macro that no test configuration of the framework sets.", "anchors": ["CPPQEDutils/IO_Manip.h: IO_Manipulator, inputTinyVector", "CPPQEDutils/Pars.cc: update"]}
{"id": "C179", "title": "Operators act on density operators from the left and from the right", "statement": "Iterating over the vectors of a density operator from the left and acting on each of them with an operator composes the density operator with it from the left; iterating from the right composes it with the transpose of the operator from the right. With two density operators (the state and its derivative) each column of the second is changed by what belongs to the same column of the first. The iteration ends, and each vector is visited once.", "quantifier": "all numbers of subsystems, all dimensions (and all bounds of arrays), all density operators, all operators and, more generally, all actions on vectors", "why_tests_cant": "Tests compare a few small density operators; that the retained axes, the transposition and the order of the visits fit for every number of subsystems and all dimensions is a statement about all of them.", "anchors": ["CPPQEDutils/VectorFromMatrixSliceIterator.h: LeftRight, Iterator, fullRange", "CPPQEDcore/quantumtrajectory/Master.h: step", "CPPQEDcore/quantumdata/LazyDensityOperatorFFT.cc: ffTransform"]}
{"id": "C180", "title": "The dictionary of the Python tools keeps the order of its entries", "statement": "After any sequence of assignments and deletions, iterating over the dictionary gives each key once, in the order in which the keys came in since they were last deleted, each with the value assigned last; looking up or deleting a key fails exactly if there is no entry with it.", "quantifier": "all histories of assignments and deletions (also failing ones), all types of keys and values", "why_tests_cant": "A test runs a few histories; the agreement of the list of keys with the data is an invariant over all of them.", "anchors": ["cpypyqed/tools/utils.py: OrderedDict"]}
{"id": "C181", "title": "Collections of expectation values keep rows, times and titles together", "statement": "A collection made of rows has one title for each row: the given one, otherwise that of the row itself, otherwise a question mark, however many titles are given; each of its trajectories has the values of its row and the given time, or that of the row. The collection of a subsystem has the rows and the titles of its range and the time of the collection, and the subsystems are in the order in which they are given.", "quantifier": "all numbers of rows, all lists of titles (shorter or longer than the rows, with gaps), all times, all ranges of subsystems", "why_tests_cant": "Tests construct a few collections; that no number of titles or range shifts a title to another row is a statement about all of them.", "anchors": ["cpypyqed/tools/expvalues.py: ExpectationValueTrajectory, ExpectationValueCollection", "cpypyqed/tools/utils.py: OrderedDict"]}
{"id": "C182", "title": "Copies keep titles", "statement": "A collection of expectation values made from a collection has its rows, its time and its titles.", "quantifier": "all collections", "why_tests_cant": "A test copies one collection; what a copy keeps has to hold for all of them.", "anchors": ["cpypyqed/tools/expvalues.py: ExpectationValueTrajectory, ExpectationValueCollection"]}
{"id": "C183", "title": "Fuzzy numbers are ordered consistently", "statement": "Of two numbers compared as fuzzy numbers exactly one of less, equal and greater holds; equality is reflexive and symmetric; less is transitive and never contradicts the order of the numbers. Numbers whose difference is at most ten machine epsilons times the larger absolute value are equal, those that differ by more than twenty are ordered as numbers, and nothing but 0 equals 0. The derived comparisons agree with these, and comparing with a plain number gives the same as comparing with a fuzzy one.", "quantifier": "all pairs and triples of real numbers", "why_tests_cant": "the tolerance jumps at every power of two, and the order has to be consistent for all pairs and triples of numbers", "anchors": ["CPPQEDutils/FuzzyDouble.cc: operator==, operator<, operator>, FuzzyDouble::eps", "CPPQEDutils/FuzzyDouble.h: FuzzyDouble"]}
{"id": "C184", "title": "Equality of fuzzy numbers is transitive", "statement": "If two fuzzy numbers are equal to a third, they are equal to each other, as required of a totally ordered type by the sorted containers and algorithms.", "quantifier": "all triples of real numbers", "why_tests_cant": "it fails only for numbers close to the tolerance from each other, which sampled numbers hardly ever are", "anchors": ["CPPQEDutils/FuzzyDouble.cc: operator==, operator<", "CPPQEDutils/FuzzyDouble.h: FuzzyDouble"]}
{"id": "C185", "title": "Copies of vectors of arrays are independent", "statement": "A deep copy of a vector of arrays, a vector filled with deep copies of an array, and the negative of a vector of arrays consist of new arrays with the right contents: making them changes no existing array, nothing written to them later changes an array that existed before, nothing written to the earlier arrays changes them, and they do not share memory with each other, even if components of the original do. The components of a vector filled with shallow copies always show the array they are copies of.", "quantifier": "all memories, all vectors of arrays including those whose components are the same array, and all later sequences of writes", "why_tests_cant": "sharing of memory shows only in later writes, whose histories are unbounded", "anchors": ["CPPQEDutils/BlitzTinyOfArrays.tcc: TinyOfArrays, negate", "CPPQEDutils/BlitzTinyOfArrays.h: TinyOfArrays, DeepCopy, ShallowCopy"]}
