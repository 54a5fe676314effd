{
 "claims": [
  {
   "property": "C01",
   "status": "proved",
   "theorems": [
    "CppQED.MII.mii_visits_box_once_lex",
    "CppQED.MII.mii_end_form"
   ],
   "note": "odometer on List Int; all ranks and bounds; machine int overflow not modelled"
  },
  {
   "property": "C02",
   "status": "proved",
   "theorems": [
    "CppQED.Slice.slices_partition",
    "CppQED.Slice.slice_addressing",
    "CppQED.Slice.consistent_iff",
    "CppQED.Slice.consistentRange_rejects_full",
    "CppQED.Slice.consistentRange_iff",
    "CppQED.Slice.consistentRange_neg"
   ],
   "note": "all ranks, bounds, axis selections in any order; consistentRange_rejects_full is a recorded finding about the compile-time check for ranges"
  },
  {
   "property": "C03",
   "status": "proved",
   "theorems": [
    "CppQED.Slice.forEachSlice_eq_extension",
    "CppQED.Slice.forEachSlice₂_eq_extension",
    "CppQED.Slice.forEachSlice_product",
    "CppQED.Slice.forEachSlice_commute"
   ],
   "note": "in-place folds over the visited slices; arbitrary local actions; commutation for linear ones"
  },
  {
   "property": "C04",
   "status": "proved",
   "theorems": [
    "CppQED.CWR.cwr_complete",
    "CppQED.CWR.cwr_subscript_inverse"
   ],
   "note": ""
  },
  {
   "property": "C05",
   "status": "proved",
   "theorems": [
    "CppQED.CMat.twoTimesRealPartOfSelf_eq",
    "CppQED.CMat.twoTimesRealPartOfSelf_hermitian_trace"
   ],
   "note": "any dimension and content"
  },
  {
   "property": "C06",
   "status": "proved",
   "theorems": [
    "CppQED.CMat.hermitianConjugate_eq_adjoint",
    "CppQED.CMat.hermitianConjugate_involutive"
   ],
   "note": "view semantics: other references to the same memory see the conjugated but not transposed data"
  },
  {
   "property": "C07",
   "status": "proved",
   "theorems": [
    "CppQED.CMat.doDirect_elementwise",
    "CppQED.CMat.flat_injective",
    "CppQED.QD.svProduct_norm"
   ],
   "note": "contiguous row-major memory model"
  },
  {
   "property": "C08",
   "status": "proved",
   "theorems": [
    "CppQED.Deflate.deflate_eq_flatten",
    "CppQED.Deflate.inflate_deflate",
    "CppQED.Deflate.deflate_inflate",
    "CppQED.Deflate.inflate_diag_only"
   ],
   "note": ""
  },
  {
   "property": "C09",
   "status": "proved",
   "theorems": [
    "CppQED.QD.sv_index_eq_dyad_index",
    "CppQED.QD.addTo_index",
    "CppQED.QD.braket_spec"
   ],
   "note": "elements agree for every state vector; trace() is C65"
  },
  {
   "property": "C10",
   "status": "proved",
   "theorems": [
    "CppQED.PTrace.reduce_eq_ptrace",
    "CppQED.PTrace.reduceSV_eq_ptrace",
    "CppQED.PTrace.reduce_trace",
    "CppQED.PTrace.reduce_hermitian",
    "CppQED.PTrace.reduce_positive",
    "CppQED.PTrace.reduce_product",
    "CppQED.PTrace.reduce_expectation",
    "CppQED.PTrace.reduce_reduce"
   ],
   "note": "reduce<V> on density operators and on state vectors, modelled down to the axis permutation and the subscripts of the diagonal slices; equality with the index-sum specification, trace, Hermiticity, positivity, product states, expectation values and composition."
  },
  {
   "property": "C11",
   "status": "proved",
   "theorems": [
    "CppQED.PTrace.partialTranspose_apply",
    "CppQED.PTrace.partialTranspose_involutive",
    "CppQED.PTrace.partialTranspose_trace",
    "CppQED.PTrace.partialTranspose_hermitian",
    "CppQED.PTrace.negPT_nonneg",
    "CppQED.PTrace.negPT_eq_zero_iff",
    "CppQED.PTrace.negPT_separable"
   ],
   "note": "Eigen's eigenvalues idealised as the roots of the characteristic polynomial."
  },
  {
   "property": "C12",
   "status": "proved",
   "theorems": [
    "CppQED.QD.purity_eq_trace_sq",
    "CppQED.QD.purity_bounds",
    "CppQED.QD.purity_dyad"
   ],
   "note": ""
  },
  {
   "property": "C13",
   "status": "proved",
   "theorems": [
    "CppQED.QD.svRenorm_spec",
    "CppQED.QD.doRenorm_spec",
    "CppQED.QD.svRenorm_idempotent",
    "CppQED.QD.svNorm_eq_zero_iff"
   ],
   "note": "exact arithmetic"
  },
  {
   "property": "C14",
   "status": "proved",
   "theorems": [
    "CppQED.FFT.ffTransformCV_eq_kernel",
    "CppQED.FFT.ffTransformCV_throws_iff",
    "CppQED.FFT.ffTransform_roundtrip",
    "CppQED.FFT.ffTransform_inner",
    "CppQED.FFT.ffTransformCM_eq",
    "CppQED.FFT.ffTransformCM_trace_hermitian",
    "CppQED.FFT.kernel_centred"
   ],
   "note": "GSL's radix-2 FFT represented by its documented contract. The code throws for sizes that are not powers of two (ffTransformCV_throws_iff), so the domain is the powers of two rather than all even sizes."
  },
  {
   "property": "C15",
   "status": "proved",
   "theorems": [
    "CppQED.Tridiag.apply_eq_matrix",
    "CppQED.Tridiag.apply_outside",
    "CppQED.Tridiag.unary_throws_iff",
    "CppQED.Tridiag.unary_entry",
    "CppQED.Tridiag.unary_wf"
   ],
   "note": "apply = matrix multiplication for every rank; constructor checks and matrix of the unary constructor"
  },
  {
   "property": "C16",
   "status": "proved",
   "theorems": [
    "CppQED.Tridiag.product_entry",
    "CppQED.Tridiag.product_shape",
    "CppQED.Tridiag.product_apply",
    "CppQED.Tridiag.product_wf"
   ],
   "note": "matrix elements factorise; product states; dimensions; consistency"
  },
  {
   "property": "C17",
   "status": "proved",
   "theorems": [
    "CppQED.Tridiag.dagger_entry",
    "CppQED.Tridiag.dagger_dagger",
    "CppQED.Tridiag.dagger_wf",
    "CppQED.Tridiag.scale_entry",
    "CppQED.Tridiag.neg_entry",
    "CppQED.Tridiag.add_entry",
    "CppQED.Tridiag.add_succeeds",
    "CppQED.Tridiag.plusHC_entry",
    "CppQED.Tridiag.minusHC_entry"
   ],
   "note": "all matrix-level identities; rejection of incompatible operands is C56"
  },
  {
   "property": "C18",
   "status": "proved",
   "theorems": [
    "CppQED.Tridiag.propagate_unary",
    "CppQED.Tridiag.propagate_history",
    "CppQED.Tridiag.propagate_return"
   ],
   "note": "unary propagation = U^-1 V U; history independence for any rank; products are C57"
  },
  {
   "property": "C19",
   "status": "proved",
   "theorems": [
    "CppQED.Sigma.sigma_acts",
    "CppQED.Sigma.sigma_dagger",
    "CppQED.Sigma.direct_head_acts",
    "CppQED.Sigma.direct_tail_acts",
    "CppQED.Sigma.tridiagonal_acts"
   ],
   "note": "Sigma, Sigma*other, other*Sigma for any partner; dagger"
  },
  {
   "property": "C20",
   "status": "proved",
   "theorems": [
    "CppQED.Sigma.calculateMatrix_eq",
    "CppQED.Sigma.calculateMatrix_none",
    "CppQED.Sigma.calculateMatrix_hermitian"
   ],
   "note": "any dimension, any Hamiltonian, Hermiticity"
  },
  {
   "property": "C21",
   "status": "proved",
   "theorems": [
    "CppQED.ModeEl.aJump_eq",
    "CppQED.ModeEl.aDagJump_eq",
    "CppQED.ModeEl.aSuperoperator_eq",
    "CppQED.ModeEl.aDagSuperoperator_eq",
    "CppQED.ModeEl.loss_rate",
    "CppQED.ModeEl.absorption_rate",
    "CppQED.ModeEl.liouvillean_is",
    "CppQED.ModeEl.absorption_rate_SV",
    "CppQED.ModeEl.liouvillean_rates",
    "CppQED.QbitEl.liouvillean_rates",
    "CppQED.SpinEl.liouvillean_rates",
    "CppQED.ModeEl.liouvillean_made"
   ],
   "note": "jump, superoperator and rate as matrices; through the Liouvillean of the class"
  },
  {
   "property": "C22",
   "status": "proved",
   "theorems": [
    "CppQED.ModeEl.mode_trace",
    "CppQED.ModeEl.mode_conserving",
    "CppQED.ModeEl.makePumpedLossy_trace",
    "CppQED.ModeEl.makePumpedLossy_trace_zeroT",
    "CppQED.QbitEl.qbit_trace",
    "CppQED.SpinEl.spinHalf_trace",
    "CppQED.MultiEl.multiLevel_conserving",
    "CppQED.MultiEl.diffusive_trace",
    "CppQED.MultiEl.ptla_conserving",
    "CppQED.Master.lindblad_hermitian",
    "CppQED.Master.lindblad_traceless_iff"
   ],
   "note": "With superoperators or jumps as the code has them; spins with s>1/2 are in C70"
  },
  {
   "property": "C23",
   "status": "proved",
   "theorems": [
    "CppQED.ModeEl.makeFree_simulates",
    "CppQED.ModeEl.makeLossy_simulates",
    "CppQED.ModeEl.makePumped_simulates",
    "CppQED.ModeEl.makePumpedLossy_simulates",
    "CppQED.QbitEl.make_simulates",
    "CppQED.QbitEl.makePhaseNoise_simulates"
   ],
   "note": "each factory in each picture: the physical (Schroedinger-picture) evolution, the jumps and the master equation are those of one Hamiltonian; mode without Kerr terms, qbit with and without phase noise"
  },
  {
   "property": "C24",
   "status": "proved",
   "theorems": [
    "CppQED.ModeEl.averaged_spec",
    "CppQED.ModeEl.averagedQuadratures_spec",
    "CppQED.ModeEl.variances_nonneg",
    "CppQED.ModeEl.dyad_state",
    "CppQED.QbitEl.averaged_spec",
    "CppQED.SpinEl.averaged_spec",
    "CppQED.Corr.modeCorrelations_spec",
    "CppQED.Corr.reduced_hermitian",
    "CppQED.Corr.reduced_trace",
    "CppQED.Corr.qbitModeCorrelations_spec",
    "CppQED.Corr.monitorCutoff_spec",
    "CppQED.Corr.monitorCutoff_quadratures",
    "CppQED.ParticleEl.averaged_spec",
    "CppQED.ParticleEl.position_variance_nonneg"
   ],
   "note": "The sigmaZ of the qbit-mode correlations is -1/2 times the sigmazop of the qbit"
  },
  {
   "property": "C25",
   "status": "proved",
   "theorems": [
    "CppQED.Elem.diffusive_jump",
    "CppQED.Elem.diffusive_dispatch",
    "CppQED.Elem.diffusive_superoperator"
   ],
   "note": "up to the multiple of rho removed by the normalisation; dispatch behind the base Liouvillean"
  },
  {
   "property": "C26",
   "status": "proved",
   "theorems": [
    "CppQED.ParticleEl.mfComposition_eq",
    "CppQED.ParticleEl.mfComposition_throws",
    "CppQED.ParticleEl.mfNKX_eq",
    "CppQED.ParticleEl.modeFunction_eq"
   ],
   "note": "Wave numbers up to half the number of grid points (2|nK| <= 2^fin)"
  },
  {
   "property": "C27",
   "status": "proved",
   "theorems": [
    "CppQED.Composite.binary_dispatch",
    "CppQED.Composite.bin_actWithJ",
    "CppQED.Composite.bin_actWithSuperoperator",
    "CppQED.Composite.bin_average",
    "CppQED.Composite.bin_key"
   ],
   "note": "Frees always; interaction when free1 is noisy or free0 has no jumps. The remaining case is C66."
  },
  {
   "property": "C28",
   "status": "proved",
   "theorems": [
    "CppQED.Composite.jump_dispatch",
    "CppQED.Composite.comp_actWithJ",
    "CppQED.Composite.comp_actWithJ_out",
    "CppQED.Composite.comp_jump_operator",
    "CppQED.Composite.comp_actWithSuperoperator",
    "CppQED.Composite.comp_actWithSuperoperator_out",
    "CppQED.Composite.comp_superoperator_operator",
    "CppQED.Composite.comp_average",
    "CppQED.Composite.comp_key"
   ],
   "note": "Dispatch, action on amplitudes and as J⊗1, rates and labels in the same order."
  },
  {
   "property": "C29",
   "status": "proved",
   "theorems": [
    "CppQED.Composite.comp_average",
    "CppQED.Composite.comp_average_expectation",
    "CppQED.Composite.bin_average",
    "CppQED.Composite.comp_process_stream",
    "CppQED.Composite.bin_process_stream"
   ],
   "note": ""
  },
  {
   "property": "C30",
   "status": "proved",
   "theorems": [
    "CppQED.Composite.keyPrinter_ok",
    "CppQED.Composite.comp_key",
    "CppQED.Composite.bin_key"
   ],
   "note": ""
  },
  {
   "property": "C31",
   "status": "proved",
   "theorems": [
    "CppQED.Composite.comp_addContribution",
    "CppQED.Composite.comp_addContribution_perm",
    "CppQED.Composite.bin_addContribution"
   ],
   "note": ""
  },
  {
   "property": "C32",
   "status": "proved",
   "theorems": [
    "CppQED.Composite.make_ok_iff",
    "CppQED.Composite.make_ok",
    "CppQED.Composite.make_conflict",
    "CppQED.Composite.make_notConsistent",
    "CppQED.Composite.rank_spec",
    "CppQED.Composite.characteristics_spec"
   ],
   "note": ""
  },
  {
   "property": "C33",
   "status": "proved",
   "theorems": [
    "CppQED.Composite.highestFrequency_spec",
    "CppQED.Composite.binaryHighestFrequency_spec",
    "CppQED.Composite.compositeHighestFrequency_frees",
    "CppQED.Composite.initialTimeStep_spec"
   ],
   "note": ""
  },
  {
   "property": "C34",
   "status": "proved",
   "theorems": [
    "CppQED.Traj.advance_reaches",
    "CppQED.Traj.advance_is_steps",
    "CppQED.Traj.advance_no_overshoot",
    "CppQED.Traj.advance_terminates",
    "CppQED.Traj.advanceTo_reaches"
   ],
   "note": "all steppers; termination under a lower bound on the step size"
  },
  {
   "property": "C35",
   "status": "proved",
   "theorems": [
    "CppQED.Traj.run_target_reached",
    "CppQED.Traj.run_nDt",
    "CppQED.Traj.run_timeDt",
    "CppQED.Traj.run_timeDc",
    "CppQED.Traj.run_rows_ordered",
    "CppQED.Traj.dispatch_dc",
    "CppQED.Traj.dispatch_Dt",
    "CppQED.Traj.dispatch_throws"
   ],
   "note": "rows of the three modes in closed form, plus ordering and bounds with any autostop handler"
  },
  {
   "property": "C36",
   "status": "proved",
   "theorems": [
    "CppQED.Traj.run_saves_final",
    "CppQED.Traj.run_nDt_saves",
    "CppQED.Traj.run_zero_no_save"
   ],
   "note": "a run to exactly time 0 writes no state (run_zero_no_save)"
  },
  {
   "property": "C37",
   "status": "proved",
   "theorems": [
    "CppQED.Traj.run_resumes",
    "CppQED.Traj.run_fresh",
    "CppQED.Traj.resume_nDt",
    "CppQED.Traj.sessions_eq",
    "CppQED.Traj.sessions_eq_uninterrupted"
   ],
   "note": "any number of interruptions; autostop excluded since the state of its handler is not serialised"
  },
  {
   "property": "C38",
   "status": "proved",
   "theorems": [
    "CppQED.StateFile.write_append",
    "CppQED.StateFile.readFile_writeFile",
    "CppQED.StateFile.readState_spec",
    "CppQED.StateFile.readBuffer_space"
   ],
   "note": "framing on the level of bytes, archives abstract"
  },
  {
   "property": "C39",
   "status": "proved",
   "theorems": [
    "CppQED.ODE.step_forward",
    "CppQED.ODE.trials_terminate",
    "CppQED.ODE.gsl_controlled",
    "CppQED.ODE.step_backward",
    "CppQED.ODE.backward_first_step_stalls"
   ],
   "note": "The stepper (GSL or Boost) is an oracle satisfying the contract Controlled; gsl_controlled derives the contract for the modelled GSL wrapper. backward_first_step_stalls documents the limit: a backward step before any forward step does not move."
  },
  {
   "property": "C40",
   "status": "proved",
   "theorems": [
    "CppQED.MCWF.jump_iff",
    "CppQED.MCWF.jump_probability",
    "CppQED.MCWF.no_jump_probability",
    "CppQED.MCWF.effectiveRates_spec",
    "CppQED.MCWF.effectiveRates_nonneg",
    "CppQED.MCWF.effectiveRates_consistent",
    "CppQED.MCWF.performJump_spec"
   ],
   "note": "jump_iff gives the exact interval for each jump, jump_probability/no_jump_probability the Lebesgue measure; performJump_spec the resulting state."
  },
  {
   "property": "C41",
   "status": "proved",
   "theorems": [
    "CppQED.MCWF.step_spec",
    "CppQED.MCWF.step_inv",
    "CppQED.MCWF.step_time",
    "CppQED.MCWF.steps_norm",
    "CppQED.MCWF.construct_inv",
    "CppQED.MCWF.adjustTry_limit",
    "CppQED.MCWF.step_terminates",
    "CppQED.MCWF.reload_between_steps",
    "CppQED.MCWF.reload_without_exact"
   ],
   "note": "For every system whose steppers are controlled, whose evolution does not annihilate states and whose nonnegative rates are consistent with the jumps (WellBehaved). Which propagator a retried step uses is the separate property C63."
  },
  {
   "property": "C42",
   "status": "proved",
   "theorems": [
    "CppQED.Master.derivative_eq",
    "CppQED.Master.exactPart_eq",
    "CppQED.Master.lindblad_hermitian",
    "CppQED.Master.step_hermitian",
    "CppQED.Master.rungeKutta_preserves",
    "CppQED.Master.step_density",
    "CppQED.Master.exactPart_posSemidef",
    "CppQED.Master.construct_iff",
    "CppQED.Master.reload_after_step",
    "CppQED.Master.loadArray_spec",
    "CppQED.Master.construct_initial",
    "CppQED.Master.combine_eq"
   ],
   "note": "the ODE solver is an arbitrary explicit Runge-Kutta method"
  },
  {
   "property": "C43",
   "status": "proved",
   "theorems": [
    "CppQED.Ensemble.averageDensity_eq",
    "CppQED.Ensemble.averageMatrix_posSemidef",
    "CppQED.Ensemble.averageMatrix_trace",
    "CppQED.Ensemble.averageDensity_perm",
    "CppQED.Ensemble.averageMatrix_expectation",
    "CppQED.Ensemble.averageNaive_eq",
    "CppQED.Ensemble.ensemble_advance",
    "CppQED.Ensemble.ensemble_progress",
    "CppQED.Ensemble.ensemble_load",
    "CppQED.Ensemble.dtDid_eq"
   ],
   "note": ""
  },
  {
   "property": "C44",
   "status": "proved",
   "theorems": [
    "CppQED.Ensemble.makeEnsemble_eq",
    "CppQED.Ensemble.makeEnsemble_nodup",
    "CppQED.Ensemble.makeEnsemble_disjoint",
    "CppQED.Ensemble.makeEnsemble_reproduce"
   ],
   "note": "distinctness is of the (seed, stream) pairs; the generator itself is not modelled"
  },
  {
   "property": "C45",
   "status": "proved",
   "theorems": [
    "CppQED.Ensemble.actWithU_correct",
    "CppQED.Ensemble.times_spec"
   ],
   "note": ""
  },
  {
   "property": "C46",
   "status": "proved",
   "theorems": [
    "CppQED.Autostop.never_stops",
    "CppQED.Autostop.stops_iff",
    "CppQED.Autostop.not_before",
    "CppQED.Autostop.stops_if_constant",
    "CppQED.Autostop.clip_spec"
   ],
   "note": "exact stopping criterion"
  },
  {
   "property": "C47",
   "status": "proved",
   "theorems": [
    "CppQED.Pars.update_sets",
    "CppQED.Pars.update_unknown",
    "CppQED.Pars.update_title",
    "CppQED.Pars.update_noPrefix",
    "CppQED.Pars.update_badValue",
    "CppQED.Pars.update_help",
    "CppQED.Pars.update_frame",
    "CppQED.Pars.add_twice",
    "CppQED.Pars.add_default",
    "CppQED.Pars.addBool_throws",
    "CppQED.Pars.addBool_default",
    "CppQED.Pars.isSpace_iff"
   ],
   "note": "The parsing (boost-like streams of command-line words) is modelled as in Pars.cc; types enter by their readers."
  },
  {
   "property": "C48",
   "status": "proved",
   "theorems": [
    "CppQED.Commenting.comment_marked",
    "CppQED.Commenting.file_lines",
    "CppQED.Commenting.data_recovered",
    "CppQED.Commenting.unfinished_comment_swallows"
   ],
   "note": "Any sequence of chunks by any number of commenting streams and direct writes."
  },
  {
   "property": "C49",
   "status": "proved",
   "theorems": [
    "CppQED.Distribution.qFunction_nonneg",
    "CppQED.Distribution.qFunction_real",
    "CppQED.Distribution.qFunction_eq",
    "CppQED.Distribution.scanFunction_grid",
    "CppQED.Distribution.mem_grid",
    "CppQED.Distribution.grid_nodup",
    "CppQED.Distribution.scanFunction_diverges",
    "CppQED.Distribution.limits_spec",
    "CppQED.Distribution.limits_ignored",
    "CppQED.Distribution.scanFunction_default"
   ],
   "note": ""
  },
  {
   "property": "C50",
   "status": "proved",
   "theorems": [
    "CppQED.DDHO.make_solves",
    "CppQED.DDHO.make_unique",
    "CppQED.DDHO.resonant_solution",
    "CppQED.DDHO.minusOne_unsolvable"
   ],
   "note": "The linear solver is exact. minusOne_unsolvable and resonant_solution concern the excluded parameters."
  },
  {
   "property": "C51",
   "status": "proved",
   "theorems": [
    "CppQED.MathExt.fact_spec",
    "CppQED.MathExt.choose_spec",
    "CppQED.MathExt.multiChoose_spec",
    "CppQED.MathExt.coherentElement_spec",
    "CppQED.MathExt.error_small",
    "CppQED.MathExt.coherent_components",
    "CppQED.MathExt.coherent_components_large",
    "CppQED.MathExt.coherent_norm",
    "CppQED.MathExt.coherent_norm_le",
    "CppQED.MathExt.coherent_eigen",
    "CppQED.MathExt.fock_spec",
    "CppQED.MathExt.init_spec"
   ],
   "note": ""
  },
  {
   "property": "C52",
   "status": "proved",
   "theorems": [
    "CppQED.TextIO.method_roundTrip",
    "CppQED.TextIO.picture_roundTrip",
    "CppQED.TextIO.modeFunction_roundTrip",
    "CppQED.TextIO.method_rejects",
    "CppQED.TextIO.picture_rejects",
    "CppQED.TextIO.modeFunction_rejects",
    "CppQED.TextIO.updateWithPicture_spec",
    "CppQED.TextIO.container_roundTrip",
    "CppQED.TextIO.container_size",
    "CppQED.TextIO.container_prefix",
    "CppQED.TextIO.nested",
    "CppQED.TextIO.enumContainer_fails",
    "CppQED.TextIO.trim_spec",
    "CppQED.TextIO.handleDelimiter_spec"
   ],
   "note": "enumContainer_fails shows the necessity of the requirement about the elements."
  },
  {
   "property": "C53",
   "status": "proved",
   "theorems": [
    "CppQED.MultiEl.multiLevel_conserving",
    "CppQED.Interactions.composite_unitary",
    "CppQED.Interactions.mode_unitary",
    "CppQED.Interactions.qbit_unitary",
    "CppQED.Interactions.multiLevel_unitary",
    "CppQED.Interactions.jaynesCummings_unitary",
    "CppQED.Interactions.jaynesCummings_excitations",
    "CppQED.Interactions.coupledModes_unitary",
    "CppQED.Interactions.mljc_unitary",
    "CppQED.Interactions.along_unitary"
   ],
   "note": "Norm conservation of the physical state for all lossless elements and interactions named, in all admissible pictures; excitation number of Jaynes-Cummings."
  },
  {
   "property": "C54",
   "status": "proved",
   "theorems": [
    "CppQED.QD.bookkeeper_invariant",
    "CppQED.QD.bookkeeper_eq_iff",
    "CppQED.QD.bookkeeper_axes"
   ],
   "note": ""
  },
  {
   "property": "C55",
   "status": "proved",
   "theorems": [
    "CppQED.PTrace.entropy_bounds"
   ],
   "note": "Eigen's eigenvalues idealised as the roots of the characteristic polynomial."
  },
  {
   "property": "C56",
   "status": "partial",
   "theorems": [
    "CppQED.Tridiag.add_rejects_partial",
    "CppQED.Tridiag.add_accepts_different_dimensions",
    "CppQED.Tridiag.add_accepts_different_frequencies"
   ],
   "note": "only different offsets are rejected; the code accepts different dimensions and different frequencies (negations proved)"
  },
  {
   "property": "C57",
   "status": "partial",
   "theorems": [
    "CppQED.Tridiag.product_propagate_partial",
    "CppQED.Tridiag.product_loses_frequencies",
    "CppQED.Tridiag.product_propagate_wrong"
   ],
   "note": "holds if in every stored diagonal both or none of the factors have frequencies; otherwise the frequencies are lost (negation proved)"
  },
  {
   "property": "C58",
   "status": "partial",
   "theorems": [
    "CppQED.Sigma.homogeneous_acts_partial",
    "CppQED.Sigma.homogeneous_ill_formed"
   ],
   "note": "correct when it compiles, but ill-formed for R1!=R2 because of the template arguments in the return statement"
  },
  {
   "property": "C59",
   "status": "proved",
   "theorems": [
    "CppQED.Traj.crash_state",
    "CppQED.Traj.crash_resume"
   ],
   "note": ""
  },
  {
   "property": "C60",
   "status": "partial",
   "theorems": [
    "CppQED.Traj.crash_no_hole_partial",
    "CppQED.Traj.crash_leaves_hole"
   ],
   "note": "violated if the crash is between the writing of the state record and of the row (crash_leaves_hole); proved when the last saved state is the last one streamed"
  },
  {
   "property": "C61",
   "status": "partial",
   "theorems": [
    "CppQED.StateFile.readFile_truncated",
    "CppQED.StateFile.truncated_rejected_partial",
    "CppQED.StateFile.truncated_accepted"
   ],
   "note": "the complete records are intact, but a truncated archive is completed with zeros and handed to the archive (truncated_accepted); proved for archives that reject such a buffer"
  },
  {
   "property": "C62",
   "status": "partial",
   "theorems": [
    "CppQED.ODE.tolerances_partial",
    "CppQED.ODE.tolerances_swapped",
    "CppQED.ODE.tolerances_wrong"
   ],
   "note": "Violated by the code: the two tolerances are exchanged on the way to the stepper. tolerances_partial: correct iff they are equal."
  },
  {
   "property": "C63",
   "status": "partial",
   "theorems": [
    "CppQED.MCWF.retry_partial",
    "CppQED.MCWF.first_trial_partial",
    "CppQED.MCWF.retry_wrong_propagator"
   ],
   "note": "Violated by the code: t0_ is not restored on step-back (retry_wrong_propagator). Holds without an exact part (retry_partial) and for first trials (first_trial_partial)."
  },
  {
   "property": "C64",
   "status": "partial",
   "theorems": [
    "CppQED.Ensemble.zero_time_partial",
    "CppQED.Ensemble.zero_time_garbage"
   ],
   "note": "violated by the code: the diagonal is uninitialised while the cached time is zero (zero_time_garbage)"
  },
  {
   "property": "C65",
   "status": "partial",
   "theorems": [
    "CppQED.QD.sv_trace_eq_dyad_trace_iff_partial",
    "CppQED.QD.sv_trace_ne_dyad_trace"
   ],
   "note": "violated by the code: a state vector reports its norm, not the norm squared; the traces agree iff the norm is 0 or 1"
  },
  {
   "property": "C66",
   "status": "partial",
   "theorems": [
    "CppQED.Composite.binary_interaction_jump_iff_partial",
    "CppQED.Composite.binary_interaction_jump"
   ],
   "note": "The code subtracts free0's jump count twice when free1 is noiseless: binary_interaction_jump says what happens instead; the iff gives exactly the cases in which the property holds."
  },
  {
   "property": "C67",
   "status": "partial",
   "theorems": [
    "CppQED.Composite.compositeHighestFrequency_partial",
    "CppQED.Composite.compositeHighestFrequency_ignores_interactions"
   ],
   "note": "The interactions' frequencies are ignored by the code; the iff gives exactly when the bound holds."
  },
  {
   "property": "C68",
   "status": "proved",
   "theorems": [
    "CppQED.Composite.comp_actWithU",
    "CppQED.Composite.bin_actWithU",
    "CppQED.Composite.comp_applicableInMaster",
    "CppQED.Composite.bin_applicableInMaster"
   ],
   "note": ""
  },
  {
   "property": "C69",
   "status": "proved",
   "theorems": [
    "CppQED.Elem.elementLiouvillean_spec"
   ],
   "note": "for any list of Lindblads"
  },
  {
   "property": "C70",
   "status": "partial",
   "theorems": [
    "CppQED.SpinEl.spin_trace_partial",
    "CppQED.SpinEl.spin_trace_not_conserved"
   ],
   "note": "violated for S>1/2: the non-Hermitian Hamiltonian -i gamma S_z does not match the jump sqrt(2 gamma) S_- (spin_trace_not_conserved); the exact value of the derivative of the trace is proved for every spin"
  },
  {
   "property": "C71",
   "status": "partial",
   "theorems": [
    "CppQED.Elem.diffusive_superoperator_partial",
    "CppQED.Elem.diffusive_superoperator_wrong"
   ],
   "note": "violated: only the first coefficient is used (diffusive_superoperator_wrong); holds for the first coefficient in place of all"
  },
  {
   "property": "C72",
   "status": "partial",
   "theorems": [
    "CppQED.ModeEl.kerr_partial",
    "CppQED.ModeEl.kerr_pictures_differ"
   ],
   "note": "violated for omegaKerr in the interaction pictures and for the classes without Hamiltonian (kerr_pictures_differ); holds in the rest"
  },
  {
   "property": "C73",
   "status": "proved",
   "theorems": [
    "CppQED.SpinEl.spin_algebra",
    "CppQED.SpinEl.jump_eq",
    "CppQED.SpinEl.rate_eq",
    "CppQED.SpinEl.spin_generates",
    "CppQED.SpinEl.sn_static",
    "CppQED.SpinEl.spinSch_generates"
   ],
   "note": "all four classes"
  },
  {
   "property": "C74",
   "status": "proved",
   "theorems": [
    "CppQED.MultiEl.addContribution_eq",
    "CppQED.MultiEl.decay_eq",
    "CppQED.MultiEl.pumpedLossySch_generates",
    "CppQED.MultiEl.diffusive_derivative",
    "CppQED.MultiEl.matrixHamiltonian_generates",
    "CppQED.MultiEl.ptla_generates",
    "CppQED.MultiEl.ptla_rate",
    "CppQED.MultiEl.makeVector_spec",
    "CppQED.MultiEl.makePars_spec",
    "CppQED.MultiEl.make_derivative",
    "CppQED.MultiEl.exact_spec",
    "CppQED.MultiEl.radiative_labels"
   ],
   "note": "MultiLevel in the Schroedinger picture (HamiltonianIP is declared but not defined in the code), the two-level atom and the matrix Hamiltonian"
  },
  {
   "property": "C75",
   "status": "proved",
   "theorems": [
    "CppQED.ParticleEl.make_simulates",
    "CppQED.ParticleEl.makePumped_simulates",
    "CppQED.ParticleEl.potE_eq"
   ],
   "note": ""
  },
  {
   "property": "C76",
   "status": "proved",
   "theorems": [
    "CppQED.Composite.comp_schroedinger",
    "CppQED.Composite.bin_schroedinger"
   ],
   "note": "pictures of the free systems are arbitrary; interactions have no exact part (as all interactions of the framework)"
  },
  {
   "property": "C77",
   "status": "proved",
   "theorems": [
    "CppQED.Interactions.binary_simulates",
    "CppQED.Interactions.composite_simulates",
    "CppQED.Interactions.jaynesCummings_simulates",
    "CppQED.Interactions.jaynesCummingsSpin_simulates",
    "CppQED.Interactions.jaynesCummingsSpinSch_simulates",
    "CppQED.Interactions.coupledModes_simulates",
    "CppQED.Interactions.generalDicke_simulates",
    "CppQED.Interactions.generalDickeSch_simulates",
    "CppQED.Interactions.mljc_couples",
    "CppQED.Interactions.mljc_exact_throws",
    "CppQED.Interactions.mljc_simulates",
    "CppQED.Interactions.jaynesCummings_phaseNoise"
   ],
   "note": "Both or none of the coupled elements in the Schroedinger picture; the remaining mixtures are C80."
  },
  {
   "property": "C78",
   "status": "proved",
   "theorems": [
    "CppQED.Interactions.orthogonal_couples",
    "CppQED.Interactions.orthogonal_throws",
    "CppQED.Interactions.along_couples",
    "CppQED.Interactions.orthogonal_simulates",
    "CppQED.Interactions.along_simulates",
    "CppQED.Interactions.alongPumped_special_couples",
    "CppQED.Interactions.alongPumped_general_couples",
    "CppQED.Interactions.mul_multiplication",
    "CppQED.Interactions.twoModes_throws",
    "CppQED.Interactions.twoModes_general_couples",
    "CppQED.Interactions.twoModes_special_couples"
   ],
   "note": "The pictures where the operator product keeps the frequencies; the rest is C80. The edge effects of the two-step branches and the sign of phi are C79."
  },
  {
   "property": "C79",
   "status": "partial",
   "theorems": [
    "CppQED.Interactions.twoModes_partial",
    "CppQED.Interactions.twoModes_special_couples",
    "CppQED.Interactions.twoModes_general_couples",
    "CppQED.Interactions.twoModes_special_wrong_sign",
    "CppQED.Interactions.general_not_antihermitian"
   ],
   "note": "Violated: the special branch contains the phase with the opposite sign of the general branch (twoModes_special_wrong_sign), and the general branches are not anti-Hermitian at the edge of the momentum space (general_not_antihermitian). Holds without phase for equal wave numbers."
  },
  {
   "property": "C80",
   "status": "partial",
   "theorems": [
    "CppQED.Interactions.jaynesCummings_pictures_partial",
    "CppQED.Interactions.jaynesCummings_mixed_wrong",
    "CppQED.Interactions.coupledModesNX_wrong",
    "CppQED.Interactions.along_exact_wrong"
   ],
   "note": "Violated: mixed pairs of pictures, the number-quadrature coupling with the second mode in interaction picture, and the light shift with the particle in interaction picture lose frequencies in the operator product. The admissible pictures are C77/C78."
  },
  {
   "property": "C81",
   "status": "proved",
   "theorems": [
    "CppQED.Distribution.wigner_rotation",
    "CppQED.Distribution.wigner_linear",
    "CppQED.Distribution.wigner_origin",
    "CppQED.Distribution.wigner_truncated"
   ],
   "note": ""
  },
  {
   "property": "C82",
   "status": "partial",
   "theorems": [
    "CppQED.Distribution.wigner_normalization_partial",
    "CppQED.Distribution.wigner_vacuum_not_normalized"
   ],
   "note": "Violated by a factor: the integral is half of the trace for every matrix (wigner_normalization_partial), so the claim fails already for the vacuum (wigner_vacuum_not_normalized)."
  },
  {
   "property": "C83",
   "status": "proved",
   "theorems": [
    "CppQED.Composite.comp_master",
    "CppQED.Interactions.composite_master",
    "CppQED.Interactions.composite_trace",
    "CppQED.Interactions.binary_master",
    "CppQED.Interactions.jaynesCummings_master",
    "CppQED.Interactions.network_master"
   ],
   "note": "composite_master and binary_master for arbitrary elements with Hamiltonian interactions; instances for Jaynes-Cummings and for arbitrary networks of lossy pumped modes. The thermal modes follow the (truncated) Master equation, but lose trace by the truncation at the cutoff, and are excluded from the statement on the trace."
  },
  {
   "property": "C84",
   "status": "proved",
   "theorems": [
    "CppQED.Composite.bin_comp_addContribution",
    "CppQED.Composite.bin_comp_actWithU",
    "CppQED.Composite.bin_comp_actWithJ",
    "CppQED.Composite.bin_comp_actWithSuperoperator",
    "CppQED.Composite.bin_comp_average",
    "CppQED.Composite.bin_toSys",
    "CppQED.Composite.bin_master_step"
   ],
   "note": "The exception, jumps of the interaction with a noiseless second free element, is the violation C66."
  },
  {
   "property": "C85",
   "status": "proved",
   "theorems": [
    "CppQED.Interactions.composite_norm_loss",
    "CppQED.Interactions.binary_norm_loss",
    "CppQED.Interactions.jaynesCummings_norm_loss"
   ],
   "note": "For arbitrary composites, binary systems, and the Jaynes-Cummings system at zero temperature."
  },
  {
   "property": "C86",
   "status": "proved",
   "theorems": [
    "CppQED.ModeEl.homodynedMode_generates",
    "CppQED.ModeEl.makeHomodyned_spec",
    "CppQED.ModeEl.homodyne_average"
   ],
   "note": "Generator and jumps of HomodynedMode, average evolution, and the maker function."
  },
  {
   "property": "C87",
   "status": "partial",
   "theorems": [
    "CppQED.ModeEl.homodyne_same_average_partial"
   ],
   "note": "The average evolution is unchanged (up to normalisation) exactly if κ=0 or α=0: the operator subtracted from the Hamiltonian has the real rather than the required coefficients. Violated by the code otherwise."
  },
  {
   "property": "C88",
   "status": "proved",
   "theorems": [
    "CppQED.ModeEl.bichromatic_step",
    "CppQED.ModeEl.makeBichromatic_spec",
    "CppQED.ModeEl.makeBichromatic_step"
   ],
   "note": "Without Kerr terms and for κ>0. The time is counted from the beginning of the step, cf. C89."
  },
  {
   "property": "C89",
   "status": "partial",
   "theorems": [
    "CppQED.ModeEl.bichromatic_phase_partial"
   ],
   "note": "In the step beginning at t0 the phase of the second pump is right exactly if exp(i(δ-δ')t0)=1: violated in general, as t0 is set to the actual time in each step."
  },
  {
   "property": "C90",
   "status": "proved",
   "theorems": [
    "CppQED.ModeEl.alternative_generates",
    "CppQED.ModeEl.alternative_zero"
   ],
   "note": "Without Kerr terms."
  },
  {
   "property": "C91",
   "status": "partial",
   "theorems": [
    "CppQED.ModeEl.alternative_generates",
    "CppQED.ModeEl.alternative_thermal_partial"
   ],
   "note": "Holds exactly if nTh=0: the Hamiltonian decay is κ instead of κ(2nTh+1). Violated otherwise."
  },
  {
   "property": "C92",
   "status": "proved",
   "theorems": [
    "CppQED.ModeEl.noExact_follows",
    "CppQED.ModeEl.noExactH_zero",
    "CppQED.ModeEl.noExact_jump",
    "CppQED.ModeEl.noExact_average"
   ],
   "note": "For the initial time 0 used by Monte Carlo trajectories without exact part (noExactH_zero); without Kerr term."
  },
  {
   "property": "C93",
   "status": "partial",
   "theorems": [
    "CppQED.ModeEl.noExact_rate_partial",
    "CppQED.ModeEl.noExact_follows"
   ],
   "note": "Violated: the rate lacks the factor 2κ and the time dependence, the averages are not normalised (noExact_average), and after resuming from file the pump terms get factors exp(∓z t0) (noExact_follows)."
  },
  {
   "property": "C94",
   "status": "proved",
   "theorems": [
    "CppQED.AvgUtils.rdo_columns",
    "CppQED.AvgUtils.rdo_average_number"
   ],
   "note": "Labels and averages are the two projections of one list of columns."
  },
  {
   "property": "C95",
   "status": "partial",
   "theorems": [
    "CppQED.AvgUtils.negProcess_spec_partial",
    "CppQED.AvgUtils.average_linear",
    "CppQED.AvgUtils.negAverage_lost"
   ],
   "note": "process is correct on averages holding the elements, and these are linear in the state; but average_v of the code loses the elements by blitz's resize (documented not to preserve the contents), so that what it returns is independent of the state (negAverage_lost)."
  },
  {
   "property": "C96",
   "status": "proved",
   "theorems": [
    "CppQED.AvgUtils.collecting_average",
    "CppQED.AvgUtils.collecting_process"
   ],
   "note": "Members' process is supposed to preserve the number of columns."
  },
  {
   "property": "C97",
   "status": "proved",
   "theorems": [
    "CppQED.DStream.stream_key"
   ],
   "note": "The numerical values of the measures are parameters here (C11 for the negativity)."
  },
  {
   "property": "C98",
   "status": "proved",
   "theorems": [
    "CppQED.DStream.timeAverage",
    "CppQED.DStream.logOnEnd_eq"
   ],
   "note": "The class is legacy code, which no file of the repository includes; modelled as written."
  },
  {
   "property": "C99",
   "status": "proved",
   "theorems": [
    "CppQED.PTrace.mutualInformation_spec",
    "CppQED.PTrace.mutualInformation_pure"
   ],
   "note": "Eigenvalues idealised as the roots of the characteristic polynomial; exact arithmetic."
  },
  {
   "property": "C100",
   "status": "proved",
   "theorems": [
    "CppQED.PTrace.purityOfPartialTrace_spec",
    "CppQED.PTrace.purityOfPartialTrace_pure"
   ],
   "note": "The order of the summation in purity is not modelled."
  },
  {
   "property": "C101",
   "status": "proved",
   "theorems": [
    "CppQED.ParticleEl.wavePacket_spec",
    "CppQED.ParticleEl.wavePacket_representations",
    "CppQED.ParticleEl.hoState_spec",
    "CppQED.ParticleEl.hoState_null",
    "CppQED.ParticleEl.zero_width",
    "CppQED.ParticleEl.initState_spec"
   ],
   "note": "Grid sizes are powers of two by construction. boost::math::hermite and the GSL FFT are represented by their documented contracts. With too few points an oscillator state can be a null vector (hoState_null)."
  },
  {
   "property": "C102",
   "status": "partial",
   "theorems": [
    "CppQED.ParticleEl.init_ground_partial",
    "CppQED.ParticleEl.init_ground_iff",
    "CppQED.ParticleEl.init_oscillator_wrong",
    "CppQED.ParticleEl.groundState_harmonic",
    "CppQED.ParticleEl.opticalPotential_approximation"
   ],
   "note": "True for the wave packet with unit pump wave number only. The width is calculated without regard to the wave number (init_ground_iff), and the oscillator states use it with a different convention, so they come out narrower by sqrt(2) (init_oscillator_wrong)."
  },
  {
   "property": "C103",
   "status": "proved",
   "theorems": [
    "CppQED.Evolved.bloch_follows",
    "CppQED.Evolved.bloch_same",
    "CppQED.Evolved.bloch_init",
    "CppQED.Evolved.bloch_steady",
    "CppQED.Evolved.lowSaturation_error"
   ],
   "note": "Derivative, uniqueness, initial values, the steady inversion and the error of the low-saturation script."
  },
  {
   "property": "C104",
   "status": "proved",
   "theorems": [
    "CppQED.Evolved.amplitude_follows",
    "CppQED.Evolved.amplitude_exact",
    "CppQED.Evolved.amplitude_close",
    "CppQED.Evolved.amplitude_generator"
   ],
   "note": "Exact derivative with the terms of the cutoff, and the bound of the difference of the trajectories."
  },
  {
   "property": "C105",
   "status": "partial",
   "theorems": [
    "CppQED.Evolved.bichromatic_pump_partial"
   ],
   "note": "Holds exactly if there is no second pump or its detuning is zero; otherwise the script uses the opposite sign."
  },
  {
   "property": "C106",
   "status": "partial",
   "theorems": [
    "CppQED.Evolved.qbitMode_partial",
    "CppQED.Evolved.jc_oneExcitation",
    "CppQED.Evolved.jc_conserves"
   ],
   "note": "Holds exactly if the coupling is real; the script omits the conjugation of the coupling in the equation of the mode. With pumps, the qbit is not an oscillator and the equations are a low-excitation approximation, not modelled."
  },
  {
   "property": "C107",
   "status": "proved",
   "theorems": [
    "CppQED.MCWFLog.record_step",
    "CppQED.MCWFLog.record_increasing",
    "CppQED.MCWFLog.record_determines"
   ],
   "note": "For well-behaved systems (controlled steppers, rates consistent with the jump operators), tolerance at least 1."
  },
  {
   "property": "C108",
   "status": "proved",
   "theorems": [
    "CppQED.MCWFLog.logging_passive",
    "CppQED.MCWFLog.logging_passive'",
    "CppQED.MCWFLog.step_summary",
    "CppQED.MCWFLog.steps_count",
    "CppQED.MCWFLog.summary_of_lines",
    "CppQED.MCWFLog.reload_log"
   ],
   "note": "The overshoot on startup is counted but does not contribute to the maximum (as intended in the code)."
  },
  {
   "property": "C109",
   "status": "proved",
   "theorems": [
    "CppQED.MCWFLog.ensemble_max",
    "CppQED.MCWFLog.ensemble_average",
    "CppQED.MCWFLog.ensemble_jumps",
    "CppQED.MCWFLog.histogram_spec",
    "CppQED.MCWFLog.histogram_undefined"
   ],
   "note": "The binning itself is done by Boost.Accumulators and is not modelled. With both the number of bins and that of jumps per bin zero, there is a division by zero (histogram_undefined)."
  },
  {
   "property": "C110",
   "status": "partial",
   "theorems": [
    "CppQED.MCWFLog.summary_partial",
    "CppQED.MCWFLog.summary_negative",
    "CppQED.MCWFLog.ensemble_silent",
    "CppQED.MCWFLog.summary_of_lines",
    "CppQED.MCWFLog.ensemble_summary"
   ],
   "note": "Violated for negative levels: the summary is streamed (summary_negative)."
  },
  {
   "property": "C111",
   "status": "proved",
   "theorems": [
    "CppQED.Alias.single_inout",
    "CppQED.Alias.master_inout",
    "CppQED.Alias.master_from_psi",
    "CppQED.Storage.evolve_in_place",
    "CppQED.Storage.evolve_separate",
    "CppQED.Storage.evolve_refuses"
   ],
   "note": "The steps of the trajectories are modelled on a memory of shared blocks and refine the steps on values."
  },
  {
   "property": "C112",
   "status": "proved",
   "theorems": [
    "CppQED.Alias.value_semantics",
    "CppQED.Alias.moved_alias",
    "CppQED.Storage.values"
   ],
   "note": "value_semantics: objects of the same shape; values: objects with dimensions, views, products, dyads and reloading, undefined assignments included. Blocks are never freed in the models."
  },
  {
   "property": "C113",
   "status": "partial",
   "theorems": [
    "CppQED.Alias.evolved_state_accessible_partial",
    "CppQED.Alias.single_loaded",
    "CppQED.Alias.master_loaded",
    "CppQED.Storage.evolve_resumed"
   ],
   "note": "True if no state is loaded; after a loading the trajectory refers to new storage and the argument stays at the state before the loading. evolve_resumed: the same for any in-place history."
  },
  {
   "property": "C114",
   "status": "proved",
   "theorems": [
    "CppQED.Alias.ensemble_members"
   ],
   "note": ""
  },
  {
   "property": "C115",
   "status": "proved",
   "theorems": [
    "CppQED.Unravel.unravelling",
    "CppQED.Unravel.ensemble_unravels",
    "CppQED.Unravel.uniform_streams"
   ],
   "note": "Weak convergence of first order in the longest step and in the error of the solver, for any method of solution which follows the Hamiltonian; almost sure convergence of the ensemble average. With an exact part, the steps must be so short that none is set back (C63 shows why). Arithmetic is real."
  },
  {
   "property": "C116",
   "status": "proved",
   "theorems": [
    "CppQED.Unravel.picture_unravels",
    "CppQED.Unravel.element_unravels",
    "CppQED.Unravel.exact_finishes",
    "CppQED.Unravel.element_finishes",
    "CppQED.Unravel.qbit_unravels",
    "CppQED.Unravel.qbitPhaseNoise_unravels",
    "CppQED.Unravel.mode_unravels",
    "CppQED.Unravel.multiLevel_unravels",
    "CppQED.Unravel.multiLevelDiffusive_unravels",
    "CppQED.Unravel.decay_unravels",
    "CppQED.Unravel.picture_attained",
    "CppQED.Unravel.solution_exists"
   ],
   "note": "From the models of the elements to the unravelling; non-zero temperature and Kerr terms are not included (composite systems: C117). The phase noise is correct here although the Master equation does not conserve the trace (C22)."
  },
  {
   "property": "C117",
   "status": "proved",
   "theorems": [
    "CppQED.Unravel.composite_unravels",
    "CppQED.Unravel.binary_unravels",
    "CppQED.Unravel.jaynesCummings_unravels",
    "CppQED.Unravel.jaynesCummings_phaseNoise_unravels",
    "CppQED.Unravel.qbitsInCavity_unravels",
    "CppQED.Unravel.Unravels.exact_mean"
   ],
   "note": "For elements which conserve the probability (up to a uniform decay, as with phase noise) and interactions without Liouvillean part. Modes at zero temperature and without Kerr terms in the concrete systems. An exact stepper is exhibited for all the systems, so the hypotheses on the stepper and on the arrival of the trajectories can be met (exact_mean)."
  },
  {
   "property": "C118",
   "status": "proved",
   "theorems": [
    "CppQED.Unravel.Unravels.ensemble_error",
    "CppQED.Unravel.Unravels.ensemble_elements",
    "CppQED.Unravel.Unravels.ensemble_near",
    "CppQED.Unravel.ensembleMatrix_eq"
   ],
   "note": "Derived from the property Unravels, which C116 and C117 prove of the elements and of composites (it now includes arrival at T with norm one); random streams are supposed independent and uniform."
  },
  {
   "property": "C119",
   "status": "proved",
   "theorems": [
    "CppQED.Master.tracks_master",
    "CppQED.Master.element_tracks",
    "CppQED.Master.composite_tracks",
    "CppQED.Master.binary_tracks",
    "CppQED.Master.qbit_tracks",
    "CppQED.Master.mode_tracks",
    "CppQED.Master.jaynesCummings_tracks",
    "CppQED.Master.network_tracks",
    "CppQED.Master.density_of_posSemidef",
    "CppQED.Master.density_pure",
    "CppQED.Master.TracksMaster.mean_agrees",
    "CppQED.Master.TracksMaster.ensemble_agrees",
    "CppQED.Evolved.ptla_tracks"
   ],
   "note": "Assumption on the stepper: its error in a step of length d is at most eps*d relative to the size of the matrix; a stepper without error is given with which the trajectories arrive."
  },
  {
   "property": "C120",
   "status": "proved",
   "theorems": [
    "CppQED.Simulated.make_throws",
    "CppQED.Simulated.columns_match",
    "CppQED.Simulated.resume",
    "CppQED.Simulated.integrates",
    "CppQED.Simulated.affine_integrates"
   ],
   "note": "Floating point is not modelled; the stepper is any controlled stepper whose error per unit time is bounded."
  },
  {
   "property": "C121",
   "status": "proved",
   "theorems": [
    "CppQED.Evolved.oscillator_integrates",
    "CppQED.Evolved.oscillator_agrees",
    "CppQED.Evolved.bloch_integrates",
    "CppQED.Evolved.ptla_agrees",
    "CppQED.Evolved.qbit_agrees",
    "CppQED.Evolved.lowSaturation_integrates",
    "CppQED.Evolved.lowSaturation_agrees",
    "CppQED.Evolved.modeScript_integrates",
    "CppQED.Evolved.mode_agrees"
   ],
   "note": "The parameters of the scripts are those of the simulated systems; PumpedLossyMode_Evolved is covered without the second pump and thermal photons (see C105 for the second pump)."
  },
  {
   "property": "C122",
   "status": "proved",
   "theorems": [
    "CppQED.Master.solution_density",
    "CppQED.Master.TracksMaster.positive",
    "CppQED.Master.ensemble_density",
    "CppQED.Master.probability_bounds"
   ],
   "note": "The systems are those of C119 (TracksMaster)."
  },
  {
   "property": "C123",
   "status": "proved",
   "theorems": [
    "CppQED.Master.tracks_normalised",
    "CppQED.Master.normalised_equation",
    "CppQED.Master.element_normalised",
    "CppQED.Master.binary_normalised",
    "CppQED.Master.composite_normalised",
    "CppQED.Master.mode_normalised",
    "CppQED.Master.mode_normalised_equation",
    "CppQED.Master.jaynesCummings_normalised",
    "CppQED.Master.network_normalised"
   ],
   "note": "Kerr terms are not included in the concrete modes (as in C119). Exact arithmetic."
  },
  {
   "property": "C124",
   "status": "partial",
   "theorems": [
    "CppQED.Storage.swap_result",
    "CppQED.Storage.swap_exchanges_iff",
    "CppQED.Storage.swap_by_copy_partial"
   ],
   "note": "The full statement is false of the code: both states end with the value of the second (swap_result), so that they are exchanged only if equal (swap_exchanges_iff). With a copied temporary they are exchanged (swap_by_copy_partial)."
  },
  {
   "property": "C125",
   "status": "partial",
   "theorems": [
    "CppQED.Storage.borrowed_averages_partial",
    "CppQED.Storage.borrowed_averages_frozen",
    "CppQED.Storage.borrowed_averages_resumed"
   ],
   "note": "True for single trajectories from their beginning (borrowed_averages_partial). With the other methods and in resumed runs the averages stay those of the initial state for ever (borrowed_averages_frozen, borrowed_averages_resumed)."
  },
  {
   "property": "C126",
   "status": "proved",
   "theorems": [
    "CppQED.Interactions.matrixSystem_rhs",
    "CppQED.Interactions.jaynesCummings_matrix"
   ],
   "note": "General systems with a time-independent linear right-hand side, and the Jaynes-Cummings system of the script."
  },
  {
   "property": "C127",
   "status": "proved",
   "theorems": [
    "CppQED.ScriptSys.conf1_simulates",
    "CppQED.ScriptSys.conf2_simulates",
    "CppQED.ScriptSys.conf3_simulates",
    "CppQED.ScriptSys.conf3_general_simulates",
    "CppQED.ScriptSys.conf4_simulates",
    "CppQED.ScriptSys.exits",
    "CppQED.ScriptSys.sign_throws"
   ],
   "note": "The equations of motion of all four configurations, the exits and the exception."
  },
  {
   "property": "C128",
   "status": "partial",
   "theorems": [
    "CppQED.ScriptSys.conf2_simulates_nothing",
    "CppQED.ScriptSys.conf4_simulates_nothing",
    "CppQED.ScriptSys.pictures_agree_partial"
   ],
   "note": "Violated: with standing waves (the default) and in the interaction pictures (the default) the light shift does not rotate, and no Hamiltonian at all is simulated (conf2_simulates_nothing, conf4_simulates_nothing). With travelling waves it holds (pictures_agree_partial)."
  },
  {
   "property": "C129",
   "status": "proved",
   "theorems": [
    "CppQED.ScriptSys.ring_simulates",
    "CppQED.ScriptSys.ring_general_simulates",
    "CppQED.ScriptSys.ring_throws"
   ],
   "note": "Equal and different wave numbers, and the exception. Standing waves in the interaction pictures are subject to the violation of C128."
  },
  {
   "property": "C130",
   "status": "proved",
   "theorems": [
    "CppQED.ScriptSys.ringEvolved_integrates",
    "CppQED.ScriptSys.ringEvolved_nan",
    "CppQED.ScriptSys.ring_amplitudes_follow",
    "CppQED.ScriptSys.ring_amplitudes_close",
    "CppQED.ScriptSys.ring_generator"
   ],
   "note": "The equations of the amplitudes follow from the Master equation up to the cutoff."
  },
  {
   "property": "C131",
   "status": "partial",
   "theorems": [
    "CppQED.ScriptSys.ringEvolved_wave_number_partial"
   ],
   "note": "Violated: the script calls modeFunction without the wave number. For opposite travelling waves of the same wave number, the equations are right at all positions exactly if the wave number is one."
  },
  {
   "property": "C132",
   "status": "proved",
   "theorems": [
    "CppQED.ScriptSys.twoParticles_simulates",
    "CppQED.ScriptSys.twoParticles_throws",
    "CppQED.ScriptSys.symmetry_kept",
    "CppQED.ScriptSys.initial_symmetric",
    "CppQED.ScriptSys.particles_alike"
   ],
   "note": "Histories of evolutions, jumps and multiplications with numbers, in the interaction picture of the scripts."
  },
  {
   "property": "C133",
   "status": "partial",
   "theorems": [
    "CppQED.ScriptSys.singleParticle_potential_partial",
    "CppQED.ScriptSys.singleParticle_aborts",
    "CppQED.ScriptSys.generates_unique"
   ],
   "note": "Violated: the script makes the particle with make(const Pars&), which drops the potential. singleParticle_potential_partial says exactly when the simulated Hamiltonian is the one described (flat potentials only); singleParticle_aborts when the script gives up."
  },
  {
   "property": "C134",
   "status": "partial",
   "theorems": [
    "CppQED.ScriptSys.ptla_switch_partial",
    "CppQED.ScriptSys.phaseNoise_adds"
   ],
   "note": "Violated: without the switch the phase noise is ignored. ptla_switch_partial says that the two agree, up to normalisation of the density operator, exactly if gammaParallel is zero; phaseNoise_adds gives the difference."
  },
  {
   "property": "C135",
   "status": "proved",
   "theorems": [
    "CppQED.FormDouble.output_readable",
    "CppQED.FormDouble.simulated_readable",
    "CppQED.FormDouble.simulatedComplex_readable",
    "CppQED.FormDouble.read_accuracy",
    "CppQED.FormDouble.read_special"
   ],
   "note": "The text of a number is modelled by the definition of %g; the contract of the C library is part of the model (Model/FormDouble)."
  },
  {
   "property": "C136",
   "status": "partial",
   "theorems": [
    "CppQED.FormDouble.negative_precision_partial"
   ],
   "note": "Violated for every negative precision: negative_precision_partial. For the others it is C135."
  },
  {
   "property": "C137",
   "status": "proved",
   "theorems": [
    "CppQED.PyIO.read_spec",
    "CppQED.PyIO.read_rejects"
   ],
   "note": "Archives are abstract byte strings with the round-trip contract (archives_exist shows that it can be met)."
  },
  {
   "property": "C138",
   "status": "partial",
   "theorems": [
    "CppQED.PyIO.read_ensemble_partial",
    "CppQED.PyIO.write_partial",
    "CppQED.PyIO.write_transposed_partial",
    "CppQED.PyIO.write_types_partial"
   ],
   "note": "Violated by the code. True for C-contiguous complex arrays, for which the theorem gives the round trip; the time is not loaded by C++. Strides are ignored (a column-major square matrix is written transposed), real arrays are labelled complex, other types yield an empty file silently, and only the first member of an ensemble is read."
  },
  {
   "property": "C139",
   "status": "proved",
   "theorems": [
    "CppQED.PyTools.normalize_spec",
    "CppQED.PyTools.outer_spec",
    "CppQED.PyTools.dyad_spec",
    "CppQED.PyTools.reduce_spec",
    "CppQED.PyTools.diagexpvalue_spec",
    "CppQED.PyTools.actwith_spec",
    "CppQED.PyTools.fft_spec",
    "CppQED.PyTools.dofft_dyad",
    "CppQED.PyTools.fft_agrees",
    "CppQED.PyTools.fft_two",
    "CppQED.PyTools.reduce_complete"
   ],
   "note": "The sign of the transform of two points is opposite to C++ (fft_two)."
  },
  {
   "property": "C140",
   "status": "partial",
   "theorems": [
    "CppQED.PyTools.expvalue_partial",
    "CppQED.PyTools.expvalue_value",
    "CppQED.PyTools.expvalue_destroy_partial",
    "CppQED.PyTools.reducesquare_partial",
    "CppQED.PyTools.actwith_partial"
   ],
   "note": "Violated by the code. expvalue returns the expectation value of the transpose, right in all states exactly for symmetric matrices; reducesquare returns the conjugate; actwith with a subsystem named twice multiplies the state by a number; one integer as index raises an exception. The theorems give the exact values."
  },
  {
   "property": "C141",
   "status": "proved",
   "theorems": [
    "CppQED.PyTools.gaussian_agrees",
    "CppQED.PyTools.coherent_agrees",
    "CppQED.PyTools.fock_agrees",
    "CppQED.PyTools.momentumEigen_spec",
    "CppQED.PyTools.ladder_spec"
   ],
   "note": ""
  },
  {
   "property": "C142",
   "status": "partial",
   "theorems": [
    "CppQED.PyTools.coherent_partial",
    "CppQED.PyTools.momentumEigen_partial"
   ],
   "note": "Violated by the code: a complex amplitude raises an exception for two or more states, a momentum below the grid is silently wrapped around (above it is refused)."
  },
  {
   "property": "C143",
   "status": "proved",
   "theorems": [
    "CppQED.PyText.evsHeader_spec",
    "CppQED.PyText.loadEvs_spec",
    "CppQED.PyText.loadJumps_spec"
   ],
   "note": "numpy.loadtxt is modelled; the conversion of one word to a number is assumed to be correct on decimal numbers (an instance is proved, sampleFloat_spec)."
  },
  {
   "property": "C144",
   "status": "partial",
   "theorems": [
    "CppQED.PyText.loadEvs_one_partial",
    "CppQED.PyText.loadEvs_complex_partial",
    "CppQED.PyText.loadJumps_few_partial",
    "CppQED.PyText.loadJumps_resumed_partial"
   ],
   "note": "Violated by the code: one data line raises an exception, so do complex variables and the jumps of a resumed trajectory; a single jump gives a one-dimensional array."
  },
  {
   "property": "C145",
   "status": "proved",
   "theorems": [
    "CppQED.Examples.mode_simulates",
    "CppQED.Examples.modeIP_simulates",
    "CppQED.Examples.mode_rates",
    "CppQED.Examples.guide_ladder",
    "CppQED.Examples.guide_correlations"
   ],
   "note": "The examples of the documentation. Products of ints under the square roots are assumed not to overflow."
  },
  {
   "property": "C146",
   "status": "partial",
   "theorems": [
    "CppQED.Examples.guide_number_partial",
    "CppQED.Examples.xx_couples_partial",
    "CppQED.Examples.xx_wrong_partial",
    "CppQED.Examples.xx_simulates_partial",
    "CppQED.Examples.xx_basic_partial",
    "CppQED.Examples.xx_mixed_partial",
    "CppQED.Examples.modeIP_master_partial",
    "CppQED.Examples.modeIP_not_master_partial"
   ],
   "note": "Violated: the column is twice the photon number; the interaction lacks the division by i, so the Hamiltonian is i times the documented one; with modes in different pictures (as in ExampleModeMain.cc) the frequencies are lost; the Master equation of the mode in interaction picture has its jump terms multiplied with exponentials of the time since the beginning of the step. Proved: what happens exactly."
  },
  {
   "property": "C147",
   "status": "proved",
   "theorems": [
    "CppQED.Interactions.independent_schroedinger",
    "CppQED.Interactions.independent_evolution",
    "CppQED.Interactions.independent_jump",
    "CppQED.CavScr.fourModes_independent",
    "CppQED.CavScr.fourModes_jump"
   ],
   "note": "Composites of any number of elements, with interactions which have no Hamiltonian. Proved against solutions of the Schrödinger equations of the subsystems, and against the elements simulated alone; FourModes as an instance, evolution and jumps (its parameters nTh are ignored)."
  },
  {
   "property": "C148",
   "status": "proved",
   "theorems": [
    "CppQED.CavScr.tutorialBinary_simulates",
    "CppQED.CavScr.qbitMode_simulates",
    "CppQED.CavScr.optomechanics_simulates",
    "CppQED.CavScr.raman_simulates",
    "CppQED.CavScr.cavityRaman_simulates",
    "CppQED.CavScr.nQbits_simulates"
   ],
   "note": "The Hamiltonians are written out in the specification; the modes without Kerr terms. Raman: the generated Master equation, too."
  },
  {
   "property": "C149",
   "status": "partial",
   "theorems": [
    "CppQED.CavScr.qbitMode_sch_partial",
    "CppQED.CavScr.optomechanics_ip_partial"
   ],
   "note": "Violated: QbitMode_C++QED with phase noise in Schrödinger picture mixes the pictures, Optomechanics loses the frequency of the mechanical mode in the interaction pictures (one of which is the default). Proved: the exact conditions under which any Hamiltonian is simulated, and that under these it is the right one."
  },
  {
   "property": "C150",
   "status": "proved",
   "theorems": [
    "CppQED.Interactions.separate_generator",
    "CppQED.Interactions.separate_reduce",
    "CppQED.Interactions.separate_solves",
    "CppQED.Interactions.separate_trajectories",
    "CppQED.Interactions.spectator",
    "CppQED.Interactions.spectator_irrelevant"
   ],
   "note": "The generator, the solutions and whole trajectories; the reduced density operator is that of the partial trace of the framework (separate_reduce). An atom in a cavity with a spectator cavity as the concrete case. Interactions which have Lindblads are not covered (none in the framework has)."
  },
  {
   "property": "C151",
   "status": "proved",
   "theorems": [
    "CppQED.ScriptSys.sine_simulates",
    "CppQED.ScriptSys.sine_general_simulates",
    "CppQED.ScriptSys.sine_throws",
    "CppQED.ScriptSys.sine_symmetry_kept",
    "CppQED.ScriptSys.sineState_bosons",
    "CppQED.ScriptSys.sineState_fermions",
    "CppQED.ScriptSys.sineState_product",
    "CppQED.ScriptSys.product_symmetry",
    "CppQED.ScriptSys.momentumCorrelation_spec"
   ],
   "note": "Equal and different wave numbers, the exception, the initial states, the symmetry and the average. Schrödinger picture: in the interaction pictures (the default) the standing wave is subject to the violation of C128."
  },
  {
   "property": "C152",
   "status": "partial",
   "theorems": [
    "CppQED.ScriptSys.sineState_fermions_partial",
    "CppQED.ScriptSys.sineState_same_partial"
   ],
   "note": "Violated: with proportional states, as those of the default parameters are, the null vector is normalised; the exact condition is proved."
  },
  {
   "property": "C153",
   "status": "proved",
   "theorems": [
    "CppQED.ScriptSys.tutorialRing_simulates",
    "CppQED.ScriptSys.tutorialRing_throws"
   ],
   "note": "All pictures, travelling waves (the default of the script)."
  },
  {
   "property": "C154",
   "status": "proved",
   "theorems": [
    "CppQED.Relax.mode_decay",
    "CppQED.Relax.mode_relaxation",
    "CppQED.Relax.qbit_decay",
    "CppQED.Relax.photons_derivative",
    "CppQED.Relax.photons_relax",
    "CppQED.Relax.photons_decay"
   ],
   "note": "Stated for the trajectories of C123 and for the solutions of the Master equation. In the full interaction picture (IP) with losses the Master equation is refused by the framework (C119). The Kerr terms are taken to be zero."
  },
  {
   "property": "C155",
   "status": "proved",
   "theorems": [
    "CppQED.Interactions.jaynesCummings_rabi",
    "CppQED.Interactions.rabi_probabilities",
    "CppQED.Interactions.rabi_solves"
   ],
   "note": "The state vectors are the solutions of the equation integrated by the trajectories, transformed back from the interaction picture by actWithU, as in C77."
  },
  {
   "property": "C156",
   "status": "proved",
   "theorems": [
    "CppQED.Relax.mode_thermalises",
    "CppQED.Relax.mode_thermalises_from",
    "CppQED.Relax.mode_to_vacuum",
    "CppQED.Relax.highest_bound",
    "CppQED.Relax.populations_relax",
    "CppQED.Relax.coherences_decay",
    "CppQED.Relax.generator_el"
   ],
   "note": "mode_thermalises with the population of the highest level as measure of the effect of the cutoff, mode_thermalises_from with that estimated in advance (highest_bound), mode_to_vacuum at zero temperature"
  },
  {
   "property": "C157",
   "status": "proved",
   "theorems": [
    "CppQED.TestDriver.getOption_value",
    "CppQED.TestDriver.value_unique",
    "CppQED.TestDriver.getOption_cycle",
    "CppQED.TestDriver.runmodes_eq"
   ],
   "note": "Interpolation of values and the section DEFAULT of configparser are not modelled. The depth of recursion of Python is a parameter."
  },
  {
   "property": "C158",
   "status": "proved",
   "theorems": [
    "CppQED.TestDriver.run_eq",
    "CppQED.TestDriver.continuedRun_eq",
    "CppQED.TestDriver.commandLine_eq"
   ],
   "note": "The system calls are abstract: any function of the command and the world."
  },
  {
   "property": "C159",
   "status": "proved",
   "theorems": [
    "CppQED.TestDriver.verifyEv_iff",
    "CppQED.TestDriver.verifyState_iff",
    "CppQED.TestDriver.verifyState_shape",
    "CppQED.TestDriver.verify_full",
    "CppQED.TestDriver.verifyEv_files"
   ],
   "note": "float of Python is abstract; NaN is not modelled."
  },
  {
   "property": "C160",
   "status": "partial",
   "theorems": [
    "CppQED.TestDriver.verifyEv_line_partial",
    "CppQED.TestDriver.verify_outcome_partial",
    "CppQED.TestDriver.verify_unknown_partial",
    "CppQED.TestDriver.agree_not_symmetric_partial",
    "CppQED.TestDriver.verifyState_single_partial"
   ],
   "note": "Violated: a file with a single line passes against any number of lines that agree with it, and a state file with a single state against any number of states that agree with it; verify=outcome always fails; any other value of verify passes without looking at the files; the tolerance is relative to the expected file only, so the agreement is not symmetric."
  },
  {
   "property": "C161",
   "status": "proved",
   "theorems": [
    "CppQED.TestDriver.stateComparer_iff",
    "CppQED.TestDriver.trajectoryComparer_iff",
    "CppQED.TestDriver.compileTarget_iff",
    "CppQED.TestDriver.finalTemperature_four"
   ],
   "note": "The interpolation and the integral of the square of the difference are abstract functions; negative indices are not modelled. FunctionComparer is not modelled."
  },
  {
   "property": "C162",
   "status": "partial",
   "theorems": [
    "CppQED.TestDriver.compileTarget_error_partial",
    "CppQED.TestDriver.trajectoryComparer_vacuous_partial",
    "CppQED.TestDriver.trajectoryComparer_documented_partial",
    "CppQED.TestDriver.stateComparer_parameters_partial",
    "CppQED.TestDriver.finalTemperature_other_partial"
   ],
   "note": "Violated: with the key error the test never passes; runmodes_<test> is not read; a comparison whose filter leaves no run mode passes; without parameters the comparison of states always fails; for temperatures other than 4 the thermal state has a measure of at least |1/(1+nTh) - 1/5|."
  },
  {
   "property": "C163",
   "status": "proved",
   "theorems": [
    "CppQED.Interactions.bin_heisenberg",
    "CppQED.Interactions.comp_heisenberg",
    "CppQED.Interactions.bin_energy",
    "CppQED.Interactions.comp_energy",
    "CppQED.Interactions.bin_overlap",
    "CppQED.Interactions.comp_overlap",
    "CppQED.Interactions.composite_energy",
    "CppQED.Interactions.jaynesCummings_energy",
    "CppQED.Interactions.coupledModes_energy",
    "CppQED.Interactions.along_energy",
    "CppQED.Interactions.along_quasimomentum",
    "CppQED.Interactions.particle_momenta"
   ],
   "note": "general theorems for all simulated systems and composites; the steps are exact solutions between jumps; the concrete systems follow from the Hamiltonians proved for them"
  },
  {
   "property": "C164",
   "status": "proved",
   "theorems": [
    "CppQED.ApplyGen.generate_source",
    "CppQED.ApplyGen.generate_apply",
    "CppQED.ApplyGen.generate_matrix"
   ],
   "note": "the text printed is equated with the text of a program of a small language of declarations and statements, whose meaning is compared with the model of apply; that C++ gives this meaning to the text is trusted"
  },
  {
   "property": "C165",
   "status": "proved",
   "theorems": [
    "CppQED.Counting.element_counts",
    "CppQED.Counting.mode_counts",
    "CppQED.Counting.qbit_counts",
    "CppQED.Counting.composite_counts",
    "CppQED.Counting.binary_counts",
    "CppQED.Counting.jaynesCummings_counts",
    "CppQED.Counting.jaynesCummings_phaseNoise_counts",
    "CppQED.Counting.coupledModes_counts",
    "CppQED.Counting.qbitsInCavity_counts",
    "CppQED.Counting.losses_counted"
   ],
   "note": "For steppers that do not annihilate states and do not leave the support that the derivative does not leave; zero temperature."
  },
  {
   "property": "C166",
   "status": "proved",
   "theorems": [
    "CppQED.StateFile.sessions_read",
    "CppQED.StateFile.plain_continues",
    "CppQED.StateFile.missing_throws",
    "CppQED.StateFile.overwrite_read",
    "CppQED.StateFile.rejected_throws"
   ],
   "note": "The bzip2 filters of Boost are represented by any codec satisfying Bzip2 (signature, concatenation of streams, error on trailing junk); a toy codec shows that it is satisfiable."
  },
  {
   "property": "C167",
   "status": "partial",
   "theorems": [
    "CppQED.StateFile.builds_read_partial",
    "CppQED.StateFile.mixed_lost"
   ],
   "note": "Violated: exactly the histories in which a file begun with compression has been written without (for a reader with compression), or begun with compression (for a reader without) are not read correctly."
  },
  {
   "property": "C168",
   "status": "partial",
   "theorems": [
    "CppQED.Traj.crash_buffered_partial",
    "CppQED.Traj.crash_restarts",
    "CppQED.Traj.crash_unflushed"
   ],
   "note": "Violated: states are buffered by the stream and the compressor, rows are flushed one by one; rows come out once exactly if the number of rows on the disk is one more than the index of the last state on the disk; if no state has reached the disk, the restart silently begins from the initial condition. C59 assumes that states reach the disk at once."
  },
  {
   "property": "C169",
   "status": "proved",
   "theorems": [
    "CppQED.Relax.photon_statistics",
    "CppQED.Relax.populations_decay",
    "CppQED.Relax.generating"
   ],
   "note": "Master-equation trajectories of the model with steppers of a given error (C123); the jump and Hamiltonian of the lossy mode from C21-C24. Kerr nonlinearity and pump absent; the interaction picture only without losses, as the constructor requires"
  },
  {
   "property": "C170",
   "status": "proved",
   "theorems": [
    "CppQED.MultiEl.multiLevel_rates",
    "CppQED.MultiEl.populations_rates",
    "CppQED.MultiEl.coherences_decay",
    "CppQED.MultiEl.rates_exist",
    "CppQED.MultiEl.lambda_rates"
   ],
   "note": "without dephasing (gamma_parallel=0) and without drives; trajectories and steppers of given error as in C123"
  },
  {
   "property": "C171",
   "status": "proved",
   "theorems": [
    "CppQED.Interactions.jaynesCummings_single",
    "CppQED.Interactions.singleState_populations",
    "CppQED.Interactions.amplitudes_exist"
   ],
   "note": "The trajectories are the ones of Reached (Props/Relaxation.lean): ideal steppers up to an error of epsilon in each step. singleState_populations says what the populations of the state are; amplitudes_exist shows that the oscillator equations have a solution from any initial values."
  },
  {
   "property": "C172",
   "status": "proved",
   "theorems": [
    "CppQED.Interactions.network_single",
    "CppQED.Interactions.hops_norm",
    "CppQED.Interactions.hops_exist",
    "CppQED.Interactions.photonState_populations"
   ],
   "note": "One photon in networks of modes of any size in Master-equation trajectories; the amplitudes are specified by the differential equations, whose solutions exist (hops_exist) and lose probability only by the decay (hops_norm); the error of the stepper as in C123."
  },
  {
   "property": "C173",
   "status": "proved",
   "theorems": [
    "CppQED.Pars.registerAll_iff",
    "CppQED.Pars.numbered_groups",
    "CppQED.Pars.numbered_copies"
   ],
   "note": "Every sequence of registrations, with the exact condition of success; the numbered case for all the groups of the framework but ParsFunctionScan. The types and defaults of the parameters are an argument of the theorems."
  },
  {
   "property": "C174",
   "status": "partial",
   "theorems": [
    "CppQED.Pars.twoModes_partial",
    "CppQED.Pars.functionScan_twice",
    "CppQED.Pars.spin_qbit"
   ],
   "note": "Violated: for two modes the exact condition on the suffixes is proved (neither may be the other one after Fock or Alter); two function scans throw for all suffixes, because only the title gets the suffix; a spin and a lossy qbit with the same suffix throw, both have a gamma. The exact condition is not worked out for the other pairs of groups."
  },
  {
   "property": "C175",
   "status": "proved",
   "theorems": [
    "CppQED.Revival.free_motion",
    "CppQED.Revival.revival",
    "CppQED.Revival.half_revival"
   ],
   "note": "free_motion gives the phases for all times, revival the returns with the displayed values, half_revival the displacement by half of the box. Real arithmetic; the trajectories are those which arrive at the time in question with a stepper of error eps."
  },
  {
   "property": "C176",
   "status": "proved",
   "theorems": [
    "CppQED.TestDriver.functionComparer_iff"
   ],
   "note": "Interpolation, quadrature, np.loadtxt and ast.literal_eval are parameters of the model. A concrete configuration with other parameters for each column is proved to pass beside the theorem."
  },
  {
   "property": "C177",
   "status": "proved",
   "theorems": [
    "CppQED.TinyIO.input_text",
    "CppQED.TinyIO.complex_understands",
    "CppQED.TinyIO.output_input",
    "CppQED.TinyIO.complex_written",
    "CppQED.TinyIO.commandLine_vector"
   ],
   "note": "Input and output of real numbers belong to the standard library and are parameters, described by Understands; those of complex numbers are modelled after libstdc++. Concrete cases with decimal digits are in the same file."
  },
  {
   "property": "C178",
   "status": "partial",
   "theorems": [
    "CppQED.TinyIO.input_iff_partial",
    "CppQED.TinyIO.input_refuses",
    "CppQED.TinyIO.input_forgotten",
    "CppQED.TinyIO.commandLine_forgotten",
    "CppQED.TinyIO.commandLine_refused"
   ],
   "note": "The code violates the statement as the framework is built: the checks of the brackets and commas are in effect only with BZ_DEBUG, which nothing defines. input_iff_partial says exactly which texts are accepted in both cases; input_forgotten proves that a forgotten bracket is not noticed and costs the first character of the first number (812,3] is read as [12,3]); input_refuses is the statement with the checks."
  },
  {
   "property": "C179",
   "status": "proved",
   "theorems": [
    "CppQED.Slice.left_columns",
    "CppQED.Slice.right_rows",
    "CppQED.Slice.left_columns₂",
    "CppQED.Slice.sandwich"
   ],
   "note": "On top of the model of the slice iterators (C02, C03). The example beside the theorems has subsystems of 2 and 3 levels."
  },
  {
   "property": "C180",
   "status": "proved",
   "theorems": [
    "CppQED.ExpValues.orderedDict_refines",
    "CppQED.ExpValues.delete_iff"
   ],
   "note": "Refinement to a list of entries. The method copy is not covered: it always fails, since it uses the undefined name odict."
  },
  {
   "property": "C181",
   "status": "proved",
   "theorems": [
    "CppQED.ExpValues.collection_new",
    "CppQED.ExpValues.collection_length",
    "CppQED.ExpValues.subsystem_titles",
    "CppQED.ExpValues.subsystems_order"
   ],
   "note": "Rows of one length and non-negative bounds of the ranges; semantics of Python 2, for which the module is written."
  },
  {
   "property": "C182",
   "status": "partial",
   "theorems": [
    "CppQED.ExpValues.copy_partial",
    "CppQED.ExpValues.copy_titles"
   ],
   "note": "The code violates the statement: the titles are lost (copy_titles). The rows and the time are kept (copy_partial)."
  },
  {
   "property": "C183",
   "status": "proved",
   "theorems": [
    "CppQED.Fuzzy.trichotomy",
    "CppQED.Fuzzy.eq_refl_symm",
    "CppQED.Fuzzy.lt_order",
    "CppQED.Fuzzy.eq_of_close",
    "CppQED.Fuzzy.lt_of_far",
    "CppQED.Fuzzy.eq_zero_iff",
    "CppQED.Fuzzy.derived"
   ],
   "note": "Over the reals; gsl_fcmp is modelled after the GSL."
  },
  {
   "property": "C184",
   "status": "partial",
   "theorems": [
    "CppQED.Fuzzy.eq_between_partial",
    "CppQED.Fuzzy.drift",
    "CppQED.Fuzzy.eq_not_transitive"
   ],
   "note": "The property does not hold: from every positive number three steps between equal numbers lead to a greater one. Proved: the numbers between two equal ones are equal to the one farther from 0."
  },
  {
   "property": "C185",
   "status": "proved",
   "theorems": [
    "CppQED.TinyArrays.deepCopy_independent",
    "CppQED.TinyArrays.deepFill_independent",
    "CppQED.TinyArrays.shallowFill_shares",
    "CppQED.TinyArrays.negate_independent"
   ],
   "note": "An array is a whole block of memory; views of parts of a block are not modelled."
  }
 ]
}
