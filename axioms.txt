'CppQED.MII.mii_visits_box_once_lex' depends on axioms: [propext, Classical.choice, Quot.sound]
'CppQED.MII.mii_end_form' depends on axioms: [propext, Classical.choice, Quot.sound]
'CppQED.Slice.slices_partition' depends on axioms: [propext, Classical.choice, Quot.sound]
'CppQED.Slice.slice_addressing' depends on axioms: [propext, Classical.choice, Quot.sound]
'CppQED.Slice.consistent_iff' depends on axioms: [propext, Classical.choice, Quot.sound]
'CppQED.Slice.consistentRange_rejects_full' depends on axioms: [propext, Classical.choice, Quot.sound]
'CppQED.Slice.consistentRange_iff' depends on axioms: [propext, Classical.choice, Quot.sound]
'CppQED.Slice.consistentRange_neg' depends on axioms: [propext]
'CppQED.Slice.forEachSlice_eq_extension' depends on axioms: [propext, Classical.choice, Quot.sound]
'CppQED.Slice.forEachSlice₂_eq_extension' depends on axioms: [propext, Classical.choice, Quot.sound]
'CppQED.Slice.forEachSlice_product' depends on axioms: [propext, Classical.choice, Quot.sound]
'CppQED.Slice.forEachSlice_commute' depends on axioms: [propext, Classical.choice, Quot.sound]
'CppQED.CWR.cwr_complete' depends on axioms: [propext, Classical.choice, Quot.sound]
'CppQED.CWR.cwr_subscript_inverse' depends on axioms: [propext, Classical.choice, Quot.sound]
'CppQED.CMat.twoTimesRealPartOfSelf_eq' depends on axioms: [propext, Classical.choice, Quot.sound]
'CppQED.CMat.twoTimesRealPartOfSelf_hermitian_trace' depends on axioms: [propext, Classical.choice, Quot.sound]
'CppQED.CMat.hermitianConjugate_eq_adjoint' depends on axioms: [propext, Classical.choice, Quot.sound]
'CppQED.CMat.hermitianConjugate_involutive' depends on axioms: [propext, Classical.choice, Quot.sound]
'CppQED.CMat.doDirect_elementwise' depends on axioms: [propext, Classical.choice, Quot.sound]
'CppQED.CMat.flat_injective' depends on axioms: [propext, Classical.choice, Quot.sound]
'CppQED.QD.svProduct_norm' depends on axioms: [propext, Classical.choice, Quot.sound]
'CppQED.Deflate.deflate_eq_flatten' depends on axioms: [propext, Classical.choice, Quot.sound]
'CppQED.Deflate.inflate_deflate' depends on axioms: [propext, Classical.choice, Quot.sound]
'CppQED.Deflate.deflate_inflate' depends on axioms: [propext, Classical.choice, Quot.sound]
'CppQED.Deflate.inflate_diag_only' depends on axioms: [propext, Classical.choice, Quot.sound]
'CppQED.QD.sv_index_eq_dyad_index' depends on axioms: [propext, Classical.choice, Quot.sound]
'CppQED.QD.addTo_index' depends on axioms: [propext, Classical.choice, Quot.sound]
'CppQED.QD.braket_spec' depends on axioms: [propext, Classical.choice, Quot.sound]
'CppQED.PTrace.reduce_eq_ptrace' depends on axioms: [propext, Classical.choice, Quot.sound]
'CppQED.PTrace.reduceSV_eq_ptrace' depends on axioms: [propext, Classical.choice, Quot.sound]
'CppQED.PTrace.reduce_trace' depends on axioms: [propext, Classical.choice, Quot.sound]
'CppQED.PTrace.reduce_hermitian' depends on axioms: [propext, Classical.choice, Quot.sound]
'CppQED.PTrace.reduce_positive' depends on axioms: [propext, Classical.choice, Quot.sound]
'CppQED.PTrace.reduce_product' depends on axioms: [propext, Classical.choice, Quot.sound]
'CppQED.PTrace.reduce_expectation' depends on axioms: [propext, Classical.choice, Quot.sound]
'CppQED.PTrace.reduce_reduce' depends on axioms: [propext, Classical.choice, Quot.sound]
'CppQED.PTrace.partialTranspose_apply' depends on axioms: [propext, Classical.choice, Quot.sound]
'CppQED.PTrace.partialTranspose_involutive' depends on axioms: [propext, Classical.choice, Quot.sound]
'CppQED.PTrace.partialTranspose_trace' depends on axioms: [propext, Classical.choice, Quot.sound]
'CppQED.PTrace.partialTranspose_hermitian' depends on axioms: [propext, Classical.choice, Quot.sound]
'CppQED.PTrace.negPT_nonneg' depends on axioms: [propext, Classical.choice, Quot.sound]
'CppQED.PTrace.negPT_eq_zero_iff' depends on axioms: [propext, Classical.choice, Quot.sound]
'CppQED.PTrace.negPT_separable' depends on axioms: [propext, Classical.choice, Quot.sound]
'CppQED.QD.purity_eq_trace_sq' depends on axioms: [propext, Classical.choice, Quot.sound]
'CppQED.QD.purity_bounds' depends on axioms: [propext, Classical.choice, Quot.sound]
'CppQED.QD.purity_dyad' depends on axioms: [propext, Classical.choice, Quot.sound]
'CppQED.QD.svRenorm_spec' depends on axioms: [propext, Classical.choice, Quot.sound]
'CppQED.QD.doRenorm_spec' depends on axioms: [propext, Classical.choice, Quot.sound]
'CppQED.QD.svRenorm_idempotent' depends on axioms: [propext, Classical.choice, Quot.sound]
'CppQED.QD.svNorm_eq_zero_iff' depends on axioms: [propext, Classical.choice, Quot.sound]
'CppQED.FFT.ffTransformCV_eq_kernel' depends on axioms: [propext, Classical.choice, Quot.sound]
'CppQED.FFT.ffTransformCV_throws_iff' depends on axioms: [propext, Classical.choice, Quot.sound]
'CppQED.FFT.ffTransform_roundtrip' depends on axioms: [propext, Classical.choice, Quot.sound]
'CppQED.FFT.ffTransform_inner' depends on axioms: [propext, Classical.choice, Quot.sound]
'CppQED.FFT.ffTransformCM_eq' depends on axioms: [propext, Classical.choice, Quot.sound]
'CppQED.FFT.ffTransformCM_trace_hermitian' depends on axioms: [propext, Classical.choice, Quot.sound]
'CppQED.FFT.kernel_centred' depends on axioms: [propext, Classical.choice, Quot.sound]
'CppQED.Tridiag.apply_eq_matrix' depends on axioms: [propext, Classical.choice, Quot.sound]
'CppQED.Tridiag.apply_outside' depends on axioms: [propext, Classical.choice, Quot.sound]
'CppQED.Tridiag.unary_throws_iff' depends on axioms: [propext, Classical.choice, Quot.sound]
'CppQED.Tridiag.unary_entry' depends on axioms: [propext, Classical.choice, Quot.sound]
'CppQED.Tridiag.unary_wf' depends on axioms: [propext, Classical.choice, Quot.sound]
'CppQED.Tridiag.product_entry' depends on axioms: [propext, Classical.choice, Quot.sound]
'CppQED.Tridiag.product_shape' depends on axioms: [propext, Classical.choice, Quot.sound]
'CppQED.Tridiag.product_apply' depends on axioms: [propext, Classical.choice, Quot.sound]
'CppQED.Tridiag.product_wf' depends on axioms: [propext, Classical.choice, Quot.sound]
'CppQED.Tridiag.dagger_entry' depends on axioms: [propext, Classical.choice, Quot.sound]
'CppQED.Tridiag.dagger_dagger' depends on axioms: [propext, Classical.choice, Quot.sound]
'CppQED.Tridiag.dagger_wf' depends on axioms: [propext, Classical.choice, Quot.sound]
'CppQED.Tridiag.scale_entry' depends on axioms: [propext, Classical.choice, Quot.sound]
'CppQED.Tridiag.neg_entry' depends on axioms: [propext, Classical.choice, Quot.sound]
'CppQED.Tridiag.add_entry' depends on axioms: [propext, Classical.choice, Quot.sound]
'CppQED.Tridiag.add_succeeds' depends on axioms: [propext, Classical.choice, Quot.sound]
'CppQED.Tridiag.plusHC_entry' depends on axioms: [propext, Classical.choice, Quot.sound]
'CppQED.Tridiag.minusHC_entry' depends on axioms: [propext, Classical.choice, Quot.sound]
'CppQED.Tridiag.propagate_unary' depends on axioms: [propext, Classical.choice, Quot.sound]
'CppQED.Tridiag.propagate_history' depends on axioms: [propext, Classical.choice, Quot.sound]
'CppQED.Tridiag.propagate_return' depends on axioms: [propext, Classical.choice, Quot.sound]
'CppQED.Sigma.sigma_acts' depends on axioms: [propext, Classical.choice, Quot.sound]
'CppQED.Sigma.sigma_dagger' depends on axioms: [propext, Classical.choice, Quot.sound]
'CppQED.Sigma.direct_head_acts' depends on axioms: [propext, Classical.choice, Quot.sound]
'CppQED.Sigma.direct_tail_acts' depends on axioms: [propext, Classical.choice, Quot.sound]
'CppQED.Sigma.tridiagonal_acts' depends on axioms: [propext, Classical.choice, Quot.sound]
'CppQED.Sigma.calculateMatrix_eq' depends on axioms: [propext, Classical.choice, Quot.sound]
'CppQED.Sigma.calculateMatrix_none' depends on axioms: [propext, Classical.choice, Quot.sound]
'CppQED.Sigma.calculateMatrix_hermitian' depends on axioms: [propext, Classical.choice, Quot.sound]
'CppQED.ModeEl.aJump_eq' depends on axioms: [propext, Classical.choice, Quot.sound]
'CppQED.ModeEl.aDagJump_eq' depends on axioms: [propext, Classical.choice, Quot.sound]
'CppQED.ModeEl.aSuperoperator_eq' depends on axioms: [propext, Classical.choice, Quot.sound]
'CppQED.ModeEl.aDagSuperoperator_eq' depends on axioms: [propext, Classical.choice, Quot.sound]
'CppQED.ModeEl.loss_rate' depends on axioms: [propext, Classical.choice, Quot.sound]
'CppQED.ModeEl.absorption_rate' depends on axioms: [propext, Classical.choice, Quot.sound]
'CppQED.ModeEl.liouvillean_is' depends on axioms: [propext, Classical.choice, Quot.sound]
'CppQED.ModeEl.absorption_rate_SV' depends on axioms: [propext, Classical.choice, Quot.sound]
'CppQED.ModeEl.liouvillean_rates' depends on axioms: [propext, Classical.choice, Quot.sound]
'CppQED.QbitEl.liouvillean_rates' depends on axioms: [propext, Classical.choice, Quot.sound]
'CppQED.SpinEl.liouvillean_rates' depends on axioms: [propext, Classical.choice, Quot.sound]
'CppQED.ModeEl.liouvillean_made' depends on axioms: [propext, Classical.choice, Quot.sound]
'CppQED.ModeEl.mode_trace' depends on axioms: [propext, Classical.choice, Quot.sound]
'CppQED.ModeEl.mode_conserving' depends on axioms: [propext, Classical.choice, Quot.sound]
'CppQED.ModeEl.makePumpedLossy_trace' depends on axioms: [propext, Classical.choice, Quot.sound]
'CppQED.ModeEl.makePumpedLossy_trace_zeroT' depends on axioms: [propext, Classical.choice, Quot.sound]
'CppQED.QbitEl.qbit_trace' depends on axioms: [propext, Classical.choice, Quot.sound]
'CppQED.SpinEl.spinHalf_trace' depends on axioms: [propext, Classical.choice, Quot.sound]
'CppQED.MultiEl.multiLevel_conserving' depends on axioms: [propext, Classical.choice, Quot.sound]
'CppQED.MultiEl.diffusive_trace' depends on axioms: [propext, Classical.choice, Quot.sound]
'CppQED.MultiEl.ptla_conserving' depends on axioms: [propext, Classical.choice, Quot.sound]
'CppQED.Master.lindblad_hermitian' depends on axioms: [propext, Classical.choice, Quot.sound]
'CppQED.Master.lindblad_traceless_iff' depends on axioms: [propext, Classical.choice, Quot.sound]
'CppQED.ModeEl.makeFree_simulates' depends on axioms: [propext, Classical.choice, Quot.sound]
'CppQED.ModeEl.makeLossy_simulates' depends on axioms: [propext, Classical.choice, Quot.sound]
'CppQED.ModeEl.makePumped_simulates' depends on axioms: [propext, Classical.choice, Quot.sound]
'CppQED.ModeEl.makePumpedLossy_simulates' depends on axioms: [propext, Classical.choice, Quot.sound]
'CppQED.QbitEl.make_simulates' depends on axioms: [propext, Classical.choice, Quot.sound]
'CppQED.QbitEl.makePhaseNoise_simulates' depends on axioms: [propext, Classical.choice, Quot.sound]
'CppQED.ModeEl.averaged_spec' depends on axioms: [propext, Classical.choice, Quot.sound]
'CppQED.ModeEl.averagedQuadratures_spec' depends on axioms: [propext, Classical.choice, Quot.sound]
'CppQED.ModeEl.variances_nonneg' depends on axioms: [propext, Classical.choice, Quot.sound]
'CppQED.ModeEl.dyad_state' depends on axioms: [propext, Classical.choice, Quot.sound]
'CppQED.QbitEl.averaged_spec' depends on axioms: [propext, Classical.choice, Quot.sound]
'CppQED.SpinEl.averaged_spec' depends on axioms: [propext, Classical.choice, Quot.sound]
'CppQED.Corr.modeCorrelations_spec' depends on axioms: [propext, Classical.choice, Quot.sound]
'CppQED.Corr.reduced_hermitian' depends on axioms: [propext, Classical.choice, Quot.sound]
'CppQED.Corr.reduced_trace' depends on axioms: [propext, Classical.choice, Quot.sound]
'CppQED.Corr.qbitModeCorrelations_spec' depends on axioms: [propext, Classical.choice, Quot.sound]
'CppQED.Corr.monitorCutoff_spec' depends on axioms: [propext, Classical.choice, Quot.sound]
'CppQED.Corr.monitorCutoff_quadratures' depends on axioms: [propext, Classical.choice, Quot.sound]
'CppQED.ParticleEl.averaged_spec' depends on axioms: [propext, Classical.choice, Quot.sound]
'CppQED.ParticleEl.position_variance_nonneg' depends on axioms: [propext, Classical.choice, Quot.sound]
'CppQED.Elem.diffusive_jump' depends on axioms: [propext, Classical.choice, Quot.sound]
'CppQED.Elem.diffusive_dispatch' depends on axioms: [propext, Classical.choice, Quot.sound]
'CppQED.Elem.diffusive_superoperator' depends on axioms: [propext, Classical.choice, Quot.sound]
'CppQED.ParticleEl.mfComposition_eq' depends on axioms: [propext, Classical.choice, Quot.sound]
'CppQED.ParticleEl.mfComposition_throws' depends on axioms: [propext, Classical.choice, Quot.sound]
'CppQED.ParticleEl.mfNKX_eq' depends on axioms: [propext, Classical.choice, Quot.sound]
'CppQED.ParticleEl.modeFunction_eq' depends on axioms: [propext, Classical.choice, Quot.sound]
'CppQED.Composite.binary_dispatch' depends on axioms: [propext, Classical.choice, Quot.sound]
'CppQED.Composite.bin_actWithJ' depends on axioms: [propext, Classical.choice, Quot.sound]
'CppQED.Composite.bin_actWithSuperoperator' depends on axioms: [propext, Classical.choice, Quot.sound]
'CppQED.Composite.bin_average' depends on axioms: [propext, Classical.choice, Quot.sound]
'CppQED.Composite.bin_key' depends on axioms: [propext, Classical.choice, Quot.sound]
'CppQED.Composite.jump_dispatch' depends on axioms: [propext, Classical.choice, Quot.sound]
'CppQED.Composite.comp_actWithJ' depends on axioms: [propext, Classical.choice, Quot.sound]
'CppQED.Composite.comp_actWithJ_out' depends on axioms: [propext, Classical.choice, Quot.sound]
'CppQED.Composite.comp_jump_operator' depends on axioms: [propext, Classical.choice, Quot.sound]
'CppQED.Composite.comp_actWithSuperoperator' depends on axioms: [propext, Classical.choice, Quot.sound]
'CppQED.Composite.comp_actWithSuperoperator_out' depends on axioms: [propext, Classical.choice, Quot.sound]
'CppQED.Composite.comp_superoperator_operator' depends on axioms: [propext, Classical.choice, Quot.sound]
'CppQED.Composite.comp_average' depends on axioms: [propext, Classical.choice, Quot.sound]
'CppQED.Composite.comp_key' depends on axioms: [propext, Classical.choice, Quot.sound]
'CppQED.Composite.comp_average_expectation' depends on axioms: [propext, Classical.choice, Quot.sound]
'CppQED.Composite.comp_process_stream' depends on axioms: [propext, Classical.choice, Quot.sound]
'CppQED.Composite.bin_process_stream' depends on axioms: [propext, Classical.choice, Quot.sound]
'CppQED.Composite.keyPrinter_ok' depends on axioms: [propext, Quot.sound]
'CppQED.Composite.comp_addContribution' depends on axioms: [propext, Classical.choice, Quot.sound]
'CppQED.Composite.comp_addContribution_perm' depends on axioms: [propext, Classical.choice, Quot.sound]
'CppQED.Composite.bin_addContribution' depends on axioms: [propext, Classical.choice, Quot.sound]
'CppQED.Composite.make_ok_iff' depends on axioms: [propext, Classical.choice, Quot.sound]
'CppQED.Composite.make_ok' depends on axioms: [propext, Classical.choice, Quot.sound]
'CppQED.Composite.make_conflict' depends on axioms: [propext, Classical.choice, Quot.sound]
'CppQED.Composite.make_notConsistent' depends on axioms: [propext, Classical.choice, Quot.sound]
'CppQED.Composite.rank_spec' depends on axioms: [propext, Quot.sound]
'CppQED.Composite.characteristics_spec' depends on axioms: [propext, Quot.sound]
'CppQED.Composite.highestFrequency_spec' depends on axioms: [propext, Classical.choice, Quot.sound]
'CppQED.Composite.binaryHighestFrequency_spec' depends on axioms: [propext, Classical.choice, Quot.sound]
'CppQED.Composite.compositeHighestFrequency_frees' depends on axioms: [propext, Classical.choice, Quot.sound]
'CppQED.Composite.initialTimeStep_spec' depends on axioms: [propext, Classical.choice, Quot.sound]
'CppQED.Traj.advance_reaches' depends on axioms: [propext, Classical.choice, Quot.sound]
'CppQED.Traj.advance_is_steps' depends on axioms: [propext, Classical.choice, Quot.sound]
'CppQED.Traj.advance_no_overshoot' depends on axioms: [propext, Classical.choice, Quot.sound]
'CppQED.Traj.advance_terminates' depends on axioms: [propext, Classical.choice, Quot.sound]
'CppQED.Traj.advanceTo_reaches' depends on axioms: [propext, Classical.choice, Quot.sound]
'CppQED.Traj.run_target_reached' depends on axioms: [propext, Classical.choice, Quot.sound]
'CppQED.Traj.run_nDt' depends on axioms: [propext, Classical.choice, Quot.sound]
'CppQED.Traj.run_timeDt' depends on axioms: [propext, Classical.choice, Quot.sound]
'CppQED.Traj.run_timeDc' depends on axioms: [propext, Classical.choice, Quot.sound]
'CppQED.Traj.run_rows_ordered' depends on axioms: [propext, Classical.choice, Quot.sound]
'CppQED.Traj.dispatch_dc' depends on axioms: [propext, Classical.choice, Quot.sound]
'CppQED.Traj.dispatch_Dt' depends on axioms: [propext, Classical.choice, Quot.sound]
'CppQED.Traj.dispatch_throws' depends on axioms: [propext, Classical.choice, Quot.sound]
'CppQED.Traj.run_saves_final' depends on axioms: [propext, Classical.choice, Quot.sound]
'CppQED.Traj.run_nDt_saves' depends on axioms: [propext, Classical.choice, Quot.sound]
'CppQED.Traj.run_zero_no_save' depends on axioms: [propext, Classical.choice, Quot.sound]
'CppQED.Traj.run_resumes' depends on axioms: [propext, Classical.choice, Quot.sound]
'CppQED.Traj.run_fresh' depends on axioms: [propext, Classical.choice, Quot.sound]
'CppQED.Traj.resume_nDt' depends on axioms: [propext, Classical.choice, Quot.sound]
'CppQED.Traj.sessions_eq' depends on axioms: [propext, Classical.choice, Quot.sound]
'CppQED.Traj.sessions_eq_uninterrupted' depends on axioms: [propext, Classical.choice, Quot.sound]
'CppQED.StateFile.write_append' depends on axioms: [propext, Classical.choice, Quot.sound]
'CppQED.StateFile.readFile_writeFile' depends on axioms: [propext, Classical.choice, Quot.sound]
'CppQED.StateFile.readState_spec' depends on axioms: [propext, Classical.choice, Quot.sound]
'CppQED.StateFile.readBuffer_space' depends on axioms: [propext, Classical.choice, Quot.sound]
'CppQED.ODE.step_forward' depends on axioms: [propext, Classical.choice, Quot.sound]
'CppQED.ODE.trials_terminate' depends on axioms: [propext, Classical.choice, Quot.sound]
'CppQED.ODE.gsl_controlled' depends on axioms: [propext, Classical.choice, Quot.sound]
'CppQED.ODE.step_backward' depends on axioms: [propext, Classical.choice, Quot.sound]
'CppQED.ODE.backward_first_step_stalls' depends on axioms: [propext, Classical.choice, Quot.sound]
'CppQED.MCWF.jump_iff' depends on axioms: [propext, Classical.choice, Quot.sound]
'CppQED.MCWF.jump_probability' depends on axioms: [propext, Classical.choice, Quot.sound]
'CppQED.MCWF.no_jump_probability' depends on axioms: [propext, Classical.choice, Quot.sound]
'CppQED.MCWF.effectiveRates_spec' depends on axioms: [propext, Classical.choice, Quot.sound]
'CppQED.MCWF.effectiveRates_nonneg' depends on axioms: [propext, Classical.choice, Quot.sound]
'CppQED.MCWF.effectiveRates_consistent' depends on axioms: [propext, Classical.choice, Quot.sound]
'CppQED.MCWF.performJump_spec' depends on axioms: [propext, Classical.choice, Quot.sound]
'CppQED.MCWF.step_spec' depends on axioms: [propext, Classical.choice, Quot.sound]
'CppQED.MCWF.step_inv' depends on axioms: [propext, Classical.choice, Quot.sound]
'CppQED.MCWF.step_time' depends on axioms: [propext, Classical.choice, Quot.sound]
'CppQED.MCWF.steps_norm' depends on axioms: [propext, Classical.choice, Quot.sound]
'CppQED.MCWF.construct_inv' depends on axioms: [propext, Classical.choice, Quot.sound]
'CppQED.MCWF.adjustTry_limit' depends on axioms: [propext, Classical.choice, Quot.sound]
'CppQED.MCWF.step_terminates' depends on axioms: [propext, Classical.choice, Quot.sound]
'CppQED.MCWF.reload_between_steps' depends on axioms: [propext, Classical.choice, Quot.sound]
'CppQED.MCWF.reload_without_exact' depends on axioms: [propext, Classical.choice, Quot.sound]
'CppQED.Master.derivative_eq' depends on axioms: [propext, Classical.choice, Quot.sound]
'CppQED.Master.exactPart_eq' depends on axioms: [propext, Classical.choice, Quot.sound]
'CppQED.Master.step_hermitian' depends on axioms: [propext, Classical.choice, Quot.sound]
'CppQED.Master.rungeKutta_preserves' depends on axioms: [propext, Classical.choice, Quot.sound]
'CppQED.Master.step_density' depends on axioms: [propext, Classical.choice, Quot.sound]
'CppQED.Master.exactPart_posSemidef' depends on axioms: [propext, Classical.choice, Quot.sound]
'CppQED.Master.construct_iff' depends on axioms: [propext, Classical.choice, Quot.sound]
'CppQED.Master.reload_after_step' depends on axioms: [propext, Classical.choice, Quot.sound]
'CppQED.Master.loadArray_spec' depends on axioms: [propext, Classical.choice, Quot.sound]
'CppQED.Master.construct_initial' depends on axioms: [propext, Classical.choice, Quot.sound]
'CppQED.Master.combine_eq' depends on axioms: [propext, Classical.choice, Quot.sound]
'CppQED.Ensemble.averageDensity_eq' depends on axioms: [propext, Classical.choice, Quot.sound]
'CppQED.Ensemble.averageMatrix_posSemidef' depends on axioms: [propext, Classical.choice, Quot.sound]
'CppQED.Ensemble.averageMatrix_trace' depends on axioms: [propext, Classical.choice, Quot.sound]
'CppQED.Ensemble.averageDensity_perm' depends on axioms: [propext, Classical.choice, Quot.sound]
'CppQED.Ensemble.averageMatrix_expectation' depends on axioms: [propext, Classical.choice, Quot.sound]
'CppQED.Ensemble.averageNaive_eq' depends on axioms: [propext, Classical.choice, Quot.sound]
'CppQED.Ensemble.ensemble_advance' depends on axioms: [propext, Classical.choice, Quot.sound]
'CppQED.Ensemble.ensemble_progress' depends on axioms: [propext, Classical.choice, Quot.sound]
'CppQED.Ensemble.ensemble_load' depends on axioms: [propext, Classical.choice, Quot.sound]
'CppQED.Ensemble.dtDid_eq' depends on axioms: [propext, Classical.choice, Quot.sound]
'CppQED.Ensemble.makeEnsemble_eq' depends on axioms: [propext, Classical.choice, Quot.sound]
'CppQED.Ensemble.makeEnsemble_nodup' depends on axioms: [propext, Classical.choice, Quot.sound]
'CppQED.Ensemble.makeEnsemble_disjoint' depends on axioms: [propext, Classical.choice, Quot.sound]
'CppQED.Ensemble.makeEnsemble_reproduce' depends on axioms: [propext, Classical.choice, Quot.sound]
'CppQED.Ensemble.actWithU_correct' depends on axioms: [propext, Classical.choice, Quot.sound]
'CppQED.Ensemble.times_spec' depends on axioms: [propext, Classical.choice, Quot.sound]
'CppQED.Autostop.never_stops' depends on axioms: [propext, Classical.choice, Quot.sound]
'CppQED.Autostop.stops_iff' depends on axioms: [propext, Classical.choice, Quot.sound]
'CppQED.Autostop.not_before' depends on axioms: [propext, Classical.choice, Quot.sound]
'CppQED.Autostop.stops_if_constant' depends on axioms: [propext, Classical.choice, Quot.sound]
'CppQED.Autostop.clip_spec' depends on axioms: [propext, Classical.choice, Quot.sound]
'CppQED.Pars.update_sets' depends on axioms: [propext, Classical.choice, Quot.sound]
'CppQED.Pars.update_unknown' depends on axioms: [propext, Classical.choice, Quot.sound]
'CppQED.Pars.update_title' depends on axioms: [propext, Classical.choice, Quot.sound]
'CppQED.Pars.update_noPrefix' depends on axioms: [propext, Classical.choice, Quot.sound]
'CppQED.Pars.update_badValue' depends on axioms: [propext, Classical.choice, Quot.sound]
'CppQED.Pars.update_help' depends on axioms: [propext, Classical.choice, Quot.sound]
'CppQED.Pars.update_frame' depends on axioms: [propext, Classical.choice, Quot.sound]
'CppQED.Pars.add_twice' depends on axioms: [propext, Quot.sound]
'CppQED.Pars.add_default' depends on axioms: [propext, Quot.sound]
'CppQED.Pars.addBool_throws' depends on axioms: [propext, Quot.sound]
'CppQED.Pars.addBool_default' depends on axioms: [propext, Quot.sound]
'CppQED.Pars.isSpace_iff' depends on axioms: [propext, Classical.choice, Quot.sound]
'CppQED.Commenting.comment_marked' depends on axioms: [propext, Quot.sound]
'CppQED.Commenting.file_lines' depends on axioms: [propext, Quot.sound]
'CppQED.Commenting.data_recovered' depends on axioms: [propext, Classical.choice, Quot.sound]
'CppQED.Commenting.unfinished_comment_swallows' does not depend on any axioms
'CppQED.Distribution.qFunction_nonneg' depends on axioms: [propext, Classical.choice, Quot.sound]
'CppQED.Distribution.qFunction_real' depends on axioms: [propext, Classical.choice, Quot.sound]
'CppQED.Distribution.qFunction_eq' depends on axioms: [propext, Classical.choice, Quot.sound]
'CppQED.Distribution.scanFunction_grid' depends on axioms: [propext, Classical.choice, Quot.sound]
'CppQED.Distribution.mem_grid' depends on axioms: [propext, Classical.choice, Quot.sound]
'CppQED.Distribution.grid_nodup' depends on axioms: [propext, Classical.choice, Quot.sound]
'CppQED.Distribution.scanFunction_diverges' depends on axioms: [propext, Classical.choice, Quot.sound]
'CppQED.Distribution.limits_spec' depends on axioms: [propext, Classical.choice, Quot.sound]
'CppQED.Distribution.limits_ignored' depends on axioms: [propext, Classical.choice, Quot.sound]
'CppQED.Distribution.scanFunction_default' depends on axioms: [propext, Classical.choice, Quot.sound]
'CppQED.DDHO.make_solves' depends on axioms: [propext, Classical.choice, Quot.sound]
'CppQED.DDHO.make_unique' depends on axioms: [propext, Classical.choice, Quot.sound]
'CppQED.DDHO.resonant_solution' depends on axioms: [propext, Classical.choice, Quot.sound]
'CppQED.DDHO.minusOne_unsolvable' depends on axioms: [propext, Classical.choice, Quot.sound]
'CppQED.MathExt.fact_spec' depends on axioms: [propext, Quot.sound]
'CppQED.MathExt.choose_spec' depends on axioms: [propext, Classical.choice, Quot.sound]
'CppQED.MathExt.multiChoose_spec' depends on axioms: [propext, Classical.choice, Quot.sound]
'CppQED.MathExt.coherentElement_spec' depends on axioms: [propext, Classical.choice, Quot.sound]
'CppQED.MathExt.error_small' depends on axioms: [propext, Classical.choice, Quot.sound]
'CppQED.MathExt.coherent_components' depends on axioms: [propext, Classical.choice, Quot.sound]
'CppQED.MathExt.coherent_components_large' depends on axioms: [propext, Classical.choice, Quot.sound]
'CppQED.MathExt.coherent_norm' depends on axioms: [propext, Classical.choice, Quot.sound]
'CppQED.MathExt.coherent_norm_le' depends on axioms: [propext, Classical.choice, Quot.sound]
'CppQED.MathExt.coherent_eigen' depends on axioms: [propext, Classical.choice, Quot.sound]
'CppQED.MathExt.fock_spec' depends on axioms: [propext, Classical.choice, Quot.sound]
'CppQED.MathExt.init_spec' depends on axioms: [propext, Classical.choice, Quot.sound]
'CppQED.TextIO.method_roundTrip' depends on axioms: [propext, Classical.choice, Quot.sound]
'CppQED.TextIO.picture_roundTrip' depends on axioms: [propext, Classical.choice, Quot.sound]
'CppQED.TextIO.modeFunction_roundTrip' depends on axioms: [propext, Classical.choice, Quot.sound]
'CppQED.TextIO.method_rejects' depends on axioms: [propext, Classical.choice, Quot.sound]
'CppQED.TextIO.picture_rejects' depends on axioms: [propext, Classical.choice, Quot.sound]
'CppQED.TextIO.modeFunction_rejects' depends on axioms: [propext, Classical.choice, Quot.sound]
'CppQED.TextIO.updateWithPicture_spec' depends on axioms: [propext]
'CppQED.TextIO.container_roundTrip' depends on axioms: [propext, Quot.sound]
'CppQED.TextIO.container_size' depends on axioms: [propext, Quot.sound]
'CppQED.TextIO.container_prefix' depends on axioms: [propext]
'CppQED.TextIO.nested' depends on axioms: [propext, Quot.sound]
'CppQED.TextIO.enumContainer_fails' depends on axioms: [propext, Classical.choice, Quot.sound]
'CppQED.TextIO.trim_spec' depends on axioms: [propext, Quot.sound]
'CppQED.TextIO.handleDelimiter_spec' depends on axioms: [propext, Quot.sound]
'CppQED.Interactions.composite_unitary' depends on axioms: [propext, Classical.choice, Quot.sound]
'CppQED.Interactions.mode_unitary' depends on axioms: [propext, Classical.choice, Quot.sound]
'CppQED.Interactions.qbit_unitary' depends on axioms: [propext, Classical.choice, Quot.sound]
'CppQED.Interactions.multiLevel_unitary' depends on axioms: [propext, Classical.choice, Quot.sound]
'CppQED.Interactions.jaynesCummings_unitary' depends on axioms: [propext, Classical.choice, Quot.sound]
'CppQED.Interactions.jaynesCummings_excitations' depends on axioms: [propext, Classical.choice, Quot.sound]
'CppQED.Interactions.coupledModes_unitary' depends on axioms: [propext, Classical.choice, Quot.sound]
'CppQED.Interactions.mljc_unitary' depends on axioms: [propext, Classical.choice, Quot.sound]
'CppQED.Interactions.along_unitary' depends on axioms: [propext, Classical.choice, Quot.sound]
'CppQED.QD.bookkeeper_invariant' depends on axioms: [propext]
'CppQED.QD.bookkeeper_eq_iff' depends on axioms: [propext, Quot.sound]
'CppQED.QD.bookkeeper_axes' depends on axioms: [propext, Classical.choice, Quot.sound]
'CppQED.PTrace.entropy_bounds' depends on axioms: [propext, Classical.choice, Quot.sound]
'CppQED.Tridiag.add_rejects_partial' depends on axioms: [propext, Classical.choice, Quot.sound]
'CppQED.Tridiag.add_accepts_different_dimensions' depends on axioms: [propext, Classical.choice, Quot.sound]
'CppQED.Tridiag.add_accepts_different_frequencies' depends on axioms: [propext, Classical.choice, Quot.sound]
'CppQED.Tridiag.product_propagate_partial' depends on axioms: [propext, Classical.choice, Quot.sound]
'CppQED.Tridiag.product_loses_frequencies' depends on axioms: [propext, Classical.choice, Quot.sound]
'CppQED.Tridiag.product_propagate_wrong' depends on axioms: [propext, Classical.choice, Quot.sound]
'CppQED.Sigma.homogeneous_acts_partial' depends on axioms: [propext, Classical.choice, Quot.sound]
'CppQED.Sigma.homogeneous_ill_formed' depends on axioms: [propext, Classical.choice, Quot.sound]
'CppQED.Traj.crash_state' depends on axioms: [propext, Classical.choice, Quot.sound]
'CppQED.Traj.crash_resume' depends on axioms: [propext, Classical.choice, Quot.sound]
'CppQED.Traj.crash_no_hole_partial' depends on axioms: [propext, Classical.choice, Quot.sound]
'CppQED.Traj.crash_leaves_hole' depends on axioms: [propext, Classical.choice, Quot.sound]
'CppQED.StateFile.readFile_truncated' depends on axioms: [propext, Classical.choice, Quot.sound]
'CppQED.StateFile.truncated_rejected_partial' depends on axioms: [propext, Classical.choice, Quot.sound]
'CppQED.StateFile.truncated_accepted' depends on axioms: [propext, Classical.choice, Quot.sound]
'CppQED.ODE.tolerances_partial' depends on axioms: [propext, Classical.choice, Quot.sound]
'CppQED.ODE.tolerances_swapped' depends on axioms: [propext, Classical.choice, Quot.sound]
'CppQED.ODE.tolerances_wrong' depends on axioms: [propext, Classical.choice, Quot.sound]
'CppQED.MCWF.retry_partial' depends on axioms: [propext, Classical.choice, Quot.sound]
'CppQED.MCWF.first_trial_partial' depends on axioms: [propext, Classical.choice, Quot.sound]
'CppQED.MCWF.retry_wrong_propagator' depends on axioms: [propext, Classical.choice, Quot.sound]
'CppQED.Ensemble.zero_time_partial' depends on axioms: [propext, Classical.choice, Quot.sound]
'CppQED.Ensemble.zero_time_garbage' depends on axioms: [propext, Classical.choice, Quot.sound]
'CppQED.QD.sv_trace_eq_dyad_trace_iff_partial' depends on axioms: [propext, Classical.choice, Quot.sound]
'CppQED.QD.sv_trace_ne_dyad_trace' depends on axioms: [propext, Classical.choice, Quot.sound]
'CppQED.Composite.binary_interaction_jump_iff_partial' depends on axioms: [propext, Classical.choice, Quot.sound]
'CppQED.Composite.binary_interaction_jump' depends on axioms: [propext, Classical.choice, Quot.sound]
'CppQED.Composite.compositeHighestFrequency_partial' depends on axioms: [propext, Classical.choice, Quot.sound]
'CppQED.Composite.compositeHighestFrequency_ignores_interactions' depends on axioms: [propext, Classical.choice, Quot.sound]
'CppQED.Composite.comp_actWithU' depends on axioms: [propext, Classical.choice, Quot.sound]
'CppQED.Composite.bin_actWithU' depends on axioms: [propext, Classical.choice, Quot.sound]
'CppQED.Composite.comp_applicableInMaster' depends on axioms: [propext, Classical.choice, Quot.sound]
'CppQED.Composite.bin_applicableInMaster' depends on axioms: [propext, Classical.choice, Quot.sound]
'CppQED.Elem.elementLiouvillean_spec' depends on axioms: [propext, Classical.choice, Quot.sound]
'CppQED.SpinEl.spin_trace_partial' depends on axioms: [propext, Classical.choice, Quot.sound]
'CppQED.SpinEl.spin_trace_not_conserved' depends on axioms: [propext, Classical.choice, Quot.sound]
'CppQED.Elem.diffusive_superoperator_partial' depends on axioms: [propext, Classical.choice, Quot.sound]
'CppQED.Elem.diffusive_superoperator_wrong' depends on axioms: [propext, Classical.choice, Quot.sound]
'CppQED.ModeEl.kerr_partial' depends on axioms: [propext, Classical.choice, Quot.sound]
'CppQED.ModeEl.kerr_pictures_differ' depends on axioms: [propext, Classical.choice, Quot.sound]
'CppQED.SpinEl.spin_algebra' depends on axioms: [propext, Classical.choice, Quot.sound]
'CppQED.SpinEl.jump_eq' depends on axioms: [propext, Classical.choice, Quot.sound]
'CppQED.SpinEl.rate_eq' depends on axioms: [propext, Classical.choice, Quot.sound]
'CppQED.SpinEl.spin_generates' depends on axioms: [propext, Classical.choice, Quot.sound]
'CppQED.SpinEl.sn_static' depends on axioms: [propext, Classical.choice, Quot.sound]
'CppQED.SpinEl.spinSch_generates' depends on axioms: [propext, Classical.choice, Quot.sound]
'CppQED.MultiEl.addContribution_eq' depends on axioms: [propext, Classical.choice, Quot.sound]
'CppQED.MultiEl.decay_eq' depends on axioms: [propext, Classical.choice, Quot.sound]
'CppQED.MultiEl.pumpedLossySch_generates' depends on axioms: [propext, Classical.choice, Quot.sound]
'CppQED.MultiEl.diffusive_derivative' depends on axioms: [propext, Classical.choice, Quot.sound]
'CppQED.MultiEl.matrixHamiltonian_generates' depends on axioms: [propext, Classical.choice, Quot.sound]
'CppQED.MultiEl.ptla_generates' depends on axioms: [propext, Classical.choice, Quot.sound]
'CppQED.MultiEl.ptla_rate' depends on axioms: [propext, Classical.choice, Quot.sound]
'CppQED.MultiEl.makeVector_spec' depends on axioms: [propext, Classical.choice, Quot.sound]
'CppQED.MultiEl.makePars_spec' depends on axioms: [propext, Classical.choice, Quot.sound]
'CppQED.MultiEl.make_derivative' depends on axioms: [propext, Classical.choice, Quot.sound]
'CppQED.MultiEl.exact_spec' depends on axioms: [propext, Classical.choice, Quot.sound]
'CppQED.MultiEl.radiative_labels' depends on axioms: [propext, Classical.choice, Quot.sound]
'CppQED.ParticleEl.make_simulates' depends on axioms: [propext, Classical.choice, Quot.sound]
'CppQED.ParticleEl.makePumped_simulates' depends on axioms: [propext, Classical.choice, Quot.sound]
'CppQED.ParticleEl.potE_eq' depends on axioms: [propext, Classical.choice, Quot.sound]
'CppQED.Composite.comp_schroedinger' depends on axioms: [propext, Classical.choice, Quot.sound]
'CppQED.Composite.bin_schroedinger' depends on axioms: [propext, Classical.choice, Quot.sound]
'CppQED.Interactions.binary_simulates' depends on axioms: [propext, Classical.choice, Quot.sound]
'CppQED.Interactions.composite_simulates' depends on axioms: [propext, Classical.choice, Quot.sound]
'CppQED.Interactions.jaynesCummings_simulates' depends on axioms: [propext, Classical.choice, Quot.sound]
'CppQED.Interactions.jaynesCummingsSpin_simulates' depends on axioms: [propext, Classical.choice, Quot.sound]
'CppQED.Interactions.jaynesCummingsSpinSch_simulates' depends on axioms: [propext, Classical.choice, Quot.sound]
'CppQED.Interactions.coupledModes_simulates' depends on axioms: [propext, Classical.choice, Quot.sound]
'CppQED.Interactions.generalDicke_simulates' depends on axioms: [propext, Classical.choice, Quot.sound]
'CppQED.Interactions.generalDickeSch_simulates' depends on axioms: [propext, Classical.choice, Quot.sound]
'CppQED.Interactions.mljc_couples' depends on axioms: [propext, Classical.choice, Quot.sound]
'CppQED.Interactions.mljc_exact_throws' depends on axioms: [propext, Classical.choice, Quot.sound]
'CppQED.Interactions.mljc_simulates' depends on axioms: [propext, Classical.choice, Quot.sound]
'CppQED.Interactions.jaynesCummings_phaseNoise' depends on axioms: [propext, Classical.choice, Quot.sound]
'CppQED.Interactions.orthogonal_couples' depends on axioms: [propext, Classical.choice, Quot.sound]
'CppQED.Interactions.orthogonal_throws' depends on axioms: [propext, Classical.choice, Quot.sound]
'CppQED.Interactions.along_couples' depends on axioms: [propext, Classical.choice, Quot.sound]
'CppQED.Interactions.orthogonal_simulates' depends on axioms: [propext, Classical.choice, Quot.sound]
'CppQED.Interactions.along_simulates' depends on axioms: [propext, Classical.choice, Quot.sound]
'CppQED.Interactions.alongPumped_special_couples' depends on axioms: [propext, Classical.choice, Quot.sound]
'CppQED.Interactions.alongPumped_general_couples' depends on axioms: [propext, Classical.choice, Quot.sound]
'CppQED.Interactions.mul_multiplication' depends on axioms: [propext, Classical.choice, Quot.sound]
'CppQED.Interactions.twoModes_throws' depends on axioms: [propext, Classical.choice, Quot.sound]
'CppQED.Interactions.twoModes_general_couples' depends on axioms: [propext, Classical.choice, Quot.sound]
'CppQED.Interactions.twoModes_special_couples' depends on axioms: [propext, Classical.choice, Quot.sound]
'CppQED.Interactions.twoModes_partial' depends on axioms: [propext, Classical.choice, Quot.sound]
'CppQED.Interactions.twoModes_special_wrong_sign' depends on axioms: [propext, Classical.choice, Quot.sound]
'CppQED.Interactions.general_not_antihermitian' depends on axioms: [propext, Classical.choice, Quot.sound]
'CppQED.Interactions.jaynesCummings_pictures_partial' depends on axioms: [propext, Classical.choice, Quot.sound]
'CppQED.Interactions.jaynesCummings_mixed_wrong' depends on axioms: [propext, Classical.choice, Quot.sound]
'CppQED.Interactions.coupledModesNX_wrong' depends on axioms: [propext, Classical.choice, Quot.sound]
'CppQED.Interactions.along_exact_wrong' depends on axioms: [propext, Classical.choice, Quot.sound]
'CppQED.Distribution.wigner_rotation' depends on axioms: [propext, Classical.choice, Quot.sound]
'CppQED.Distribution.wigner_linear' depends on axioms: [propext, Classical.choice, Quot.sound]
'CppQED.Distribution.wigner_origin' depends on axioms: [propext, Classical.choice, Quot.sound]
'CppQED.Distribution.wigner_truncated' depends on axioms: [propext, Classical.choice, Quot.sound]
'CppQED.Distribution.wigner_normalization_partial' depends on axioms: [propext, Classical.choice, Quot.sound]
'CppQED.Distribution.wigner_vacuum_not_normalized' depends on axioms: [propext, Classical.choice, Quot.sound]
'CppQED.Composite.comp_master' depends on axioms: [propext, Classical.choice, Quot.sound]
'CppQED.Interactions.composite_master' depends on axioms: [propext, Classical.choice, Quot.sound]
'CppQED.Interactions.composite_trace' depends on axioms: [propext, Classical.choice, Quot.sound]
'CppQED.Interactions.binary_master' depends on axioms: [propext, Classical.choice, Quot.sound]
'CppQED.Interactions.jaynesCummings_master' depends on axioms: [propext, Classical.choice, Quot.sound]
'CppQED.Interactions.network_master' depends on axioms: [propext, Classical.choice, Quot.sound]
'CppQED.Composite.bin_comp_addContribution' depends on axioms: [propext, Classical.choice, Quot.sound]
'CppQED.Composite.bin_comp_actWithU' depends on axioms: [propext, Classical.choice, Quot.sound]
'CppQED.Composite.bin_comp_actWithJ' depends on axioms: [propext, Classical.choice, Quot.sound]
'CppQED.Composite.bin_comp_actWithSuperoperator' depends on axioms: [propext, Classical.choice, Quot.sound]
'CppQED.Composite.bin_comp_average' depends on axioms: [propext, Classical.choice, Quot.sound]
'CppQED.Composite.bin_toSys' depends on axioms: [propext, Classical.choice, Quot.sound]
'CppQED.Composite.bin_master_step' depends on axioms: [propext, Classical.choice, Quot.sound]
'CppQED.Interactions.composite_norm_loss' depends on axioms: [propext, Classical.choice, Quot.sound]
'CppQED.Interactions.binary_norm_loss' depends on axioms: [propext, Classical.choice, Quot.sound]
'CppQED.Interactions.jaynesCummings_norm_loss' depends on axioms: [propext, Classical.choice, Quot.sound]
'CppQED.ModeEl.homodynedMode_generates' depends on axioms: [propext, Classical.choice, Quot.sound]
'CppQED.ModeEl.makeHomodyned_spec' depends on axioms: [propext, Classical.choice, Quot.sound]
'CppQED.ModeEl.homodyne_average' depends on axioms: [propext, Classical.choice, Quot.sound]
'CppQED.ModeEl.homodyne_same_average_partial' depends on axioms: [propext, Classical.choice, Quot.sound]
'CppQED.ModeEl.bichromatic_step' depends on axioms: [propext, Classical.choice, Quot.sound]
'CppQED.ModeEl.makeBichromatic_spec' depends on axioms: [propext, Classical.choice, Quot.sound]
'CppQED.ModeEl.makeBichromatic_step' depends on axioms: [propext, Classical.choice, Quot.sound]
'CppQED.ModeEl.bichromatic_phase_partial' depends on axioms: [propext, Classical.choice, Quot.sound]
'CppQED.ModeEl.alternative_generates' depends on axioms: [propext, Classical.choice, Quot.sound]
'CppQED.ModeEl.alternative_zero' depends on axioms: [propext, Classical.choice, Quot.sound]
'CppQED.ModeEl.alternative_thermal_partial' depends on axioms: [propext, Classical.choice, Quot.sound]
'CppQED.ModeEl.noExact_follows' depends on axioms: [propext, Classical.choice, Quot.sound]
'CppQED.ModeEl.noExactH_zero' depends on axioms: [propext, Classical.choice, Quot.sound]
'CppQED.ModeEl.noExact_jump' depends on axioms: [propext, Classical.choice, Quot.sound]
'CppQED.ModeEl.noExact_average' depends on axioms: [propext, Classical.choice, Quot.sound]
'CppQED.ModeEl.noExact_rate_partial' depends on axioms: [propext, Classical.choice, Quot.sound]
'CppQED.AvgUtils.rdo_columns' depends on axioms: [propext, Classical.choice, Quot.sound]
'CppQED.AvgUtils.rdo_average_number' depends on axioms: [propext, Classical.choice, Quot.sound]
'CppQED.AvgUtils.negProcess_spec_partial' depends on axioms: [propext, Classical.choice, Quot.sound]
'CppQED.AvgUtils.average_linear' depends on axioms: [propext, Classical.choice, Quot.sound]
'CppQED.AvgUtils.negAverage_lost' depends on axioms: [propext, Classical.choice, Quot.sound]
'CppQED.AvgUtils.collecting_average' depends on axioms: [propext, Classical.choice, Quot.sound]
'CppQED.AvgUtils.collecting_process' depends on axioms: [propext, Classical.choice, Quot.sound]
'CppQED.DStream.stream_key' depends on axioms: [propext, Classical.choice, Quot.sound]
'CppQED.DStream.timeAverage' depends on axioms: [propext, Classical.choice, Quot.sound]
'CppQED.DStream.logOnEnd_eq' depends on axioms: [propext, Classical.choice, Quot.sound]
'CppQED.PTrace.mutualInformation_spec' depends on axioms: [propext, Classical.choice, Quot.sound]
'CppQED.PTrace.mutualInformation_pure' depends on axioms: [propext, Classical.choice, Quot.sound]
'CppQED.PTrace.purityOfPartialTrace_spec' depends on axioms: [propext, Classical.choice, Quot.sound]
'CppQED.PTrace.purityOfPartialTrace_pure' depends on axioms: [propext, Classical.choice, Quot.sound]
'CppQED.ParticleEl.wavePacket_spec' depends on axioms: [propext, Classical.choice, Quot.sound]
'CppQED.ParticleEl.wavePacket_representations' depends on axioms: [propext, Classical.choice, Quot.sound]
'CppQED.ParticleEl.hoState_spec' depends on axioms: [propext, Classical.choice, Quot.sound]
'CppQED.ParticleEl.hoState_null' depends on axioms: [propext, Classical.choice, Quot.sound]
'CppQED.ParticleEl.zero_width' depends on axioms: [propext, Classical.choice, Quot.sound]
'CppQED.ParticleEl.initState_spec' depends on axioms: [propext, Classical.choice, Quot.sound]
'CppQED.ParticleEl.init_ground_partial' depends on axioms: [propext, Classical.choice, Quot.sound]
'CppQED.ParticleEl.init_ground_iff' depends on axioms: [propext, Classical.choice, Quot.sound]
'CppQED.ParticleEl.init_oscillator_wrong' depends on axioms: [propext, Classical.choice, Quot.sound]
'CppQED.ParticleEl.groundState_harmonic' depends on axioms: [propext, Classical.choice, Quot.sound]
'CppQED.ParticleEl.opticalPotential_approximation' depends on axioms: [propext, Classical.choice, Quot.sound]
'CppQED.Evolved.bloch_follows' depends on axioms: [propext, Classical.choice, Quot.sound]
'CppQED.Evolved.bloch_same' depends on axioms: [propext, Classical.choice, Quot.sound]
'CppQED.Evolved.bloch_init' depends on axioms: [propext, Classical.choice, Quot.sound]
'CppQED.Evolved.bloch_steady' depends on axioms: [propext, Classical.choice, Quot.sound]
'CppQED.Evolved.lowSaturation_error' depends on axioms: [propext, Classical.choice, Quot.sound]
'CppQED.Evolved.amplitude_follows' depends on axioms: [propext, Classical.choice, Quot.sound]
'CppQED.Evolved.amplitude_exact' depends on axioms: [propext, Classical.choice, Quot.sound]
'CppQED.Evolved.amplitude_close' depends on axioms: [propext, Classical.choice, Quot.sound]
'CppQED.Evolved.amplitude_generator' depends on axioms: [propext, Classical.choice, Quot.sound]
'CppQED.Evolved.bichromatic_pump_partial' depends on axioms: [propext, Classical.choice, Quot.sound]
'CppQED.Evolved.qbitMode_partial' depends on axioms: [propext, Classical.choice, Quot.sound]
'CppQED.Evolved.jc_oneExcitation' depends on axioms: [propext, Classical.choice, Quot.sound]
'CppQED.Evolved.jc_conserves' depends on axioms: [propext, Classical.choice, Quot.sound]
'CppQED.MCWFLog.record_step' depends on axioms: [propext, Classical.choice, Quot.sound]
'CppQED.MCWFLog.record_increasing' depends on axioms: [propext, Classical.choice, Quot.sound]
'CppQED.MCWFLog.record_determines' depends on axioms: [propext, Classical.choice, Quot.sound]
'CppQED.MCWFLog.logging_passive' depends on axioms: [propext, Classical.choice, Quot.sound]
'CppQED.MCWFLog.logging_passive'' depends on axioms: [propext, Classical.choice, Quot.sound]
'CppQED.MCWFLog.step_summary' depends on axioms: [propext, Classical.choice, Quot.sound]
'CppQED.MCWFLog.steps_count' depends on axioms: [propext, Classical.choice, Quot.sound]
'CppQED.MCWFLog.summary_of_lines' depends on axioms: [propext, Classical.choice, Quot.sound]
'CppQED.MCWFLog.reload_log' depends on axioms: [propext, Classical.choice, Quot.sound]
'CppQED.MCWFLog.ensemble_max' depends on axioms: [propext, Quot.sound]
'CppQED.MCWFLog.ensemble_average' depends on axioms: [propext, Classical.choice, Quot.sound]
'CppQED.MCWFLog.ensemble_jumps' depends on axioms: [propext, Classical.choice, Quot.sound]
'CppQED.MCWFLog.histogram_spec' depends on axioms: [propext, Classical.choice, Quot.sound]
'CppQED.MCWFLog.histogram_undefined' depends on axioms: [propext]
'CppQED.MCWFLog.summary_partial' depends on axioms: [propext, Classical.choice, Quot.sound]
'CppQED.MCWFLog.summary_negative' depends on axioms: [propext, Classical.choice, Quot.sound]
'CppQED.MCWFLog.ensemble_silent' depends on axioms: [propext, Classical.choice, Quot.sound]
'CppQED.MCWFLog.ensemble_summary' depends on axioms: [propext, Classical.choice, Quot.sound]
'CppQED.Alias.single_inout' depends on axioms: [propext, Classical.choice, Quot.sound]
'CppQED.Alias.master_inout' depends on axioms: [propext, Classical.choice, Quot.sound]
'CppQED.Alias.master_from_psi' depends on axioms: [propext, Classical.choice, Quot.sound]
'CppQED.Storage.evolve_in_place' depends on axioms: [propext, Classical.choice, Quot.sound]
'CppQED.Storage.evolve_separate' depends on axioms: [propext, Classical.choice, Quot.sound]
'CppQED.Storage.evolve_refuses' depends on axioms: [propext, Classical.choice, Quot.sound]
'CppQED.Alias.value_semantics' depends on axioms: [propext, Classical.choice, Quot.sound]
'CppQED.Alias.moved_alias' depends on axioms: [propext, Classical.choice, Quot.sound]
'CppQED.Storage.values' depends on axioms: [propext, Classical.choice, Quot.sound]
'CppQED.Alias.evolved_state_accessible_partial' depends on axioms: [propext, Classical.choice, Quot.sound]
'CppQED.Alias.single_loaded' depends on axioms: [propext, Classical.choice, Quot.sound]
'CppQED.Alias.master_loaded' depends on axioms: [propext, Classical.choice, Quot.sound]
'CppQED.Storage.evolve_resumed' depends on axioms: [propext, Classical.choice, Quot.sound]
'CppQED.Alias.ensemble_members' depends on axioms: [propext, Classical.choice, Quot.sound]
'CppQED.Unravel.unravelling' depends on axioms: [propext, Classical.choice, Quot.sound]
'CppQED.Unravel.ensemble_unravels' depends on axioms: [propext, Classical.choice, Quot.sound]
'CppQED.Unravel.uniform_streams' depends on axioms: [propext, Classical.choice, Quot.sound]
'CppQED.Unravel.picture_unravels' depends on axioms: [propext, Classical.choice, Quot.sound]
'CppQED.Unravel.element_unravels' depends on axioms: [propext, Classical.choice, Quot.sound]
'CppQED.Unravel.exact_finishes' depends on axioms: [propext, Classical.choice, Quot.sound]
'CppQED.Unravel.element_finishes' depends on axioms: [propext, Classical.choice, Quot.sound]
'CppQED.Unravel.qbit_unravels' depends on axioms: [propext, Classical.choice, Quot.sound]
'CppQED.Unravel.qbitPhaseNoise_unravels' depends on axioms: [propext, Classical.choice, Quot.sound]
'CppQED.Unravel.mode_unravels' depends on axioms: [propext, Classical.choice, Quot.sound]
'CppQED.Unravel.multiLevel_unravels' depends on axioms: [propext, Classical.choice, Quot.sound]
'CppQED.Unravel.multiLevelDiffusive_unravels' depends on axioms: [propext, Classical.choice, Quot.sound]
'CppQED.Unravel.decay_unravels' depends on axioms: [propext, Classical.choice, Quot.sound]
'CppQED.Unravel.picture_attained' depends on axioms: [propext, Classical.choice, Quot.sound]
'CppQED.Unravel.solution_exists' depends on axioms: [propext, Classical.choice, Quot.sound]
'CppQED.Unravel.composite_unravels' depends on axioms: [propext, Classical.choice, Quot.sound]
'CppQED.Unravel.binary_unravels' depends on axioms: [propext, Classical.choice, Quot.sound]
'CppQED.Unravel.jaynesCummings_unravels' depends on axioms: [propext, Classical.choice, Quot.sound]
'CppQED.Unravel.jaynesCummings_phaseNoise_unravels' depends on axioms: [propext, Classical.choice, Quot.sound]
'CppQED.Unravel.qbitsInCavity_unravels' depends on axioms: [propext, Classical.choice, Quot.sound]
'CppQED.Unravel.Unravels.exact_mean' depends on axioms: [propext, Classical.choice, Quot.sound]
'CppQED.Unravel.Unravels.ensemble_error' depends on axioms: [propext, Classical.choice, Quot.sound]
'CppQED.Unravel.Unravels.ensemble_elements' depends on axioms: [propext, Classical.choice, Quot.sound]
'CppQED.Unravel.Unravels.ensemble_near' depends on axioms: [propext, Classical.choice, Quot.sound]
'CppQED.Unravel.ensembleMatrix_eq' depends on axioms: [propext, Classical.choice, Quot.sound]
'CppQED.Master.tracks_master' depends on axioms: [propext, Classical.choice, Quot.sound]
'CppQED.Master.element_tracks' depends on axioms: [propext, Classical.choice, Quot.sound]
'CppQED.Master.composite_tracks' depends on axioms: [propext, Classical.choice, Quot.sound]
'CppQED.Master.binary_tracks' depends on axioms: [propext, Classical.choice, Quot.sound]
'CppQED.Master.qbit_tracks' depends on axioms: [propext, Classical.choice, Quot.sound]
'CppQED.Master.mode_tracks' depends on axioms: [propext, Classical.choice, Quot.sound]
'CppQED.Master.jaynesCummings_tracks' depends on axioms: [propext, Classical.choice, Quot.sound]
'CppQED.Master.network_tracks' depends on axioms: [propext, Classical.choice, Quot.sound]
'CppQED.Master.density_of_posSemidef' depends on axioms: [propext, Classical.choice, Quot.sound]
'CppQED.Master.density_pure' depends on axioms: [propext, Classical.choice, Quot.sound]
'CppQED.Master.TracksMaster.mean_agrees' depends on axioms: [propext, Classical.choice, Quot.sound]
'CppQED.Master.TracksMaster.ensemble_agrees' depends on axioms: [propext, Classical.choice, Quot.sound]
'CppQED.Evolved.ptla_tracks' depends on axioms: [propext, Classical.choice, Quot.sound]
'CppQED.Simulated.make_throws' depends on axioms: [propext, Classical.choice, Quot.sound]
'CppQED.Simulated.columns_match' depends on axioms: [propext, Classical.choice, Quot.sound]
'CppQED.Simulated.resume' depends on axioms: [propext, Classical.choice, Quot.sound]
'CppQED.Simulated.integrates' depends on axioms: [propext, Classical.choice, Quot.sound]
'CppQED.Simulated.affine_integrates' depends on axioms: [propext, Classical.choice, Quot.sound]
'CppQED.Evolved.oscillator_integrates' depends on axioms: [propext, Classical.choice, Quot.sound]
'CppQED.Evolved.oscillator_agrees' depends on axioms: [propext, Classical.choice, Quot.sound]
'CppQED.Evolved.bloch_integrates' depends on axioms: [propext, Classical.choice, Quot.sound]
'CppQED.Evolved.ptla_agrees' depends on axioms: [propext, Classical.choice, Quot.sound]
'CppQED.Evolved.qbit_agrees' depends on axioms: [propext, Classical.choice, Quot.sound]
'CppQED.Evolved.lowSaturation_integrates' depends on axioms: [propext, Classical.choice, Quot.sound]
'CppQED.Evolved.lowSaturation_agrees' depends on axioms: [propext, Classical.choice, Quot.sound]
'CppQED.Evolved.modeScript_integrates' depends on axioms: [propext, Classical.choice, Quot.sound]
'CppQED.Evolved.mode_agrees' depends on axioms: [propext, Classical.choice, Quot.sound]
'CppQED.Master.solution_density' depends on axioms: [propext, Classical.choice, Quot.sound]
'CppQED.Master.TracksMaster.positive' depends on axioms: [propext, Classical.choice, Quot.sound]
'CppQED.Master.ensemble_density' depends on axioms: [propext, Classical.choice, Quot.sound]
'CppQED.Master.probability_bounds' depends on axioms: [propext, Classical.choice, Quot.sound]
'CppQED.Master.tracks_normalised' depends on axioms: [propext, Classical.choice, Quot.sound]
'CppQED.Master.normalised_equation' depends on axioms: [propext, Classical.choice, Quot.sound]
'CppQED.Master.element_normalised' depends on axioms: [propext, Classical.choice, Quot.sound]
'CppQED.Master.binary_normalised' depends on axioms: [propext, Classical.choice, Quot.sound]
'CppQED.Master.composite_normalised' depends on axioms: [propext, Classical.choice, Quot.sound]
'CppQED.Master.mode_normalised' depends on axioms: [propext, Classical.choice, Quot.sound]
'CppQED.Master.mode_normalised_equation' depends on axioms: [propext, Classical.choice, Quot.sound]
'CppQED.Master.jaynesCummings_normalised' depends on axioms: [propext, Classical.choice, Quot.sound]
'CppQED.Master.network_normalised' depends on axioms: [propext, Classical.choice, Quot.sound]
'CppQED.Storage.swap_result' depends on axioms: [propext, Classical.choice, Quot.sound]
'CppQED.Storage.swap_exchanges_iff' depends on axioms: [propext, Classical.choice, Quot.sound]
'CppQED.Storage.swap_by_copy_partial' depends on axioms: [propext, Classical.choice, Quot.sound]
'CppQED.Storage.borrowed_averages_partial' depends on axioms: [propext, Classical.choice, Quot.sound]
'CppQED.Storage.borrowed_averages_frozen' depends on axioms: [propext, Classical.choice, Quot.sound]
'CppQED.Storage.borrowed_averages_resumed' depends on axioms: [propext, Classical.choice, Quot.sound]
'CppQED.Interactions.matrixSystem_rhs' depends on axioms: [propext, Classical.choice, Quot.sound]
'CppQED.Interactions.jaynesCummings_matrix' depends on axioms: [propext, Classical.choice, Quot.sound]
'CppQED.ScriptSys.conf1_simulates' depends on axioms: [propext, Classical.choice, Quot.sound]
'CppQED.ScriptSys.conf2_simulates' depends on axioms: [propext, Classical.choice, Quot.sound]
'CppQED.ScriptSys.conf3_simulates' depends on axioms: [propext, Classical.choice, Quot.sound]
'CppQED.ScriptSys.conf3_general_simulates' depends on axioms: [propext, Classical.choice, Quot.sound]
'CppQED.ScriptSys.conf4_simulates' depends on axioms: [propext, Classical.choice, Quot.sound]
'CppQED.ScriptSys.exits' depends on axioms: [propext, Classical.choice, Quot.sound]
'CppQED.ScriptSys.sign_throws' depends on axioms: [propext, Classical.choice, Quot.sound]
'CppQED.ScriptSys.conf2_simulates_nothing' depends on axioms: [propext, Classical.choice, Quot.sound]
'CppQED.ScriptSys.conf4_simulates_nothing' depends on axioms: [propext, Classical.choice, Quot.sound]
'CppQED.ScriptSys.pictures_agree_partial' depends on axioms: [propext, Classical.choice, Quot.sound]
'CppQED.ScriptSys.ring_simulates' depends on axioms: [propext, Classical.choice, Quot.sound]
'CppQED.ScriptSys.ring_general_simulates' depends on axioms: [propext, Classical.choice, Quot.sound]
'CppQED.ScriptSys.ring_throws' depends on axioms: [propext, Classical.choice, Quot.sound]
'CppQED.ScriptSys.ringEvolved_integrates' depends on axioms: [propext, Classical.choice, Quot.sound]
'CppQED.ScriptSys.ringEvolved_nan' depends on axioms: [propext, Classical.choice, Quot.sound]
'CppQED.ScriptSys.ring_amplitudes_follow' depends on axioms: [propext, Classical.choice, Quot.sound]
'CppQED.ScriptSys.ring_amplitudes_close' depends on axioms: [propext, Classical.choice, Quot.sound]
'CppQED.ScriptSys.ring_generator' depends on axioms: [propext, Classical.choice, Quot.sound]
'CppQED.ScriptSys.ringEvolved_wave_number_partial' depends on axioms: [propext, Classical.choice, Quot.sound]
'CppQED.ScriptSys.twoParticles_simulates' depends on axioms: [propext, Classical.choice, Quot.sound]
'CppQED.ScriptSys.twoParticles_throws' depends on axioms: [propext, Classical.choice, Quot.sound]
'CppQED.ScriptSys.symmetry_kept' depends on axioms: [propext, Classical.choice, Quot.sound]
'CppQED.ScriptSys.initial_symmetric' depends on axioms: [propext, Classical.choice, Quot.sound]
'CppQED.ScriptSys.particles_alike' depends on axioms: [propext, Classical.choice, Quot.sound]
'CppQED.ScriptSys.singleParticle_potential_partial' depends on axioms: [propext, Classical.choice, Quot.sound]
'CppQED.ScriptSys.singleParticle_aborts' depends on axioms: [propext, Classical.choice, Quot.sound]
'CppQED.ScriptSys.generates_unique' depends on axioms: [propext, Classical.choice, Quot.sound]
'CppQED.ScriptSys.ptla_switch_partial' depends on axioms: [propext, Classical.choice, Quot.sound]
'CppQED.ScriptSys.phaseNoise_adds' depends on axioms: [propext, Classical.choice, Quot.sound]
'CppQED.FormDouble.output_readable' depends on axioms: [propext, Classical.choice, Quot.sound]
'CppQED.FormDouble.simulated_readable' depends on axioms: [propext, Classical.choice, Quot.sound]
'CppQED.FormDouble.simulatedComplex_readable' depends on axioms: [propext, Classical.choice, Quot.sound]
'CppQED.FormDouble.read_accuracy' depends on axioms: [propext, Classical.choice, Quot.sound]
'CppQED.FormDouble.read_special' depends on axioms: [propext, Classical.choice, Quot.sound]
'CppQED.FormDouble.negative_precision_partial' depends on axioms: [propext, Classical.choice, Quot.sound]
'CppQED.PyIO.read_spec' depends on axioms: [propext, Classical.choice, Quot.sound]
'CppQED.PyIO.read_rejects' depends on axioms: [propext, Classical.choice, Quot.sound]
'CppQED.PyIO.read_ensemble_partial' depends on axioms: [propext, Classical.choice, Quot.sound]
'CppQED.PyIO.write_partial' depends on axioms: [propext, Classical.choice, Quot.sound]
'CppQED.PyIO.write_transposed_partial' depends on axioms: [propext, Classical.choice, Quot.sound]
'CppQED.PyIO.write_types_partial' depends on axioms: [propext, Classical.choice, Quot.sound]
'CppQED.PyTools.normalize_spec' depends on axioms: [propext, Classical.choice, Quot.sound]
'CppQED.PyTools.outer_spec' depends on axioms: [propext, Classical.choice, Quot.sound]
'CppQED.PyTools.dyad_spec' depends on axioms: [propext, Classical.choice, Quot.sound]
'CppQED.PyTools.reduce_spec' depends on axioms: [propext, Classical.choice, Quot.sound]
'CppQED.PyTools.diagexpvalue_spec' depends on axioms: [propext, Classical.choice, Quot.sound]
'CppQED.PyTools.actwith_spec' depends on axioms: [propext, Classical.choice, Quot.sound]
'CppQED.PyTools.fft_spec' depends on axioms: [propext, Classical.choice, Quot.sound]
'CppQED.PyTools.dofft_dyad' depends on axioms: [propext, Classical.choice, Quot.sound]
'CppQED.PyTools.fft_agrees' depends on axioms: [propext, Classical.choice, Quot.sound]
'CppQED.PyTools.fft_two' depends on axioms: [propext, Classical.choice, Quot.sound]
'CppQED.PyTools.reduce_complete' depends on axioms: [propext, Classical.choice, Quot.sound]
'CppQED.PyTools.expvalue_partial' depends on axioms: [propext, Classical.choice, Quot.sound]
'CppQED.PyTools.expvalue_value' depends on axioms: [propext, Classical.choice, Quot.sound]
'CppQED.PyTools.expvalue_destroy_partial' depends on axioms: [propext, Classical.choice, Quot.sound]
'CppQED.PyTools.reducesquare_partial' depends on axioms: [propext, Classical.choice, Quot.sound]
'CppQED.PyTools.actwith_partial' depends on axioms: [propext, Classical.choice, Quot.sound]
'CppQED.PyTools.gaussian_agrees' depends on axioms: [propext, Classical.choice, Quot.sound]
'CppQED.PyTools.coherent_agrees' depends on axioms: [propext, Classical.choice, Quot.sound]
'CppQED.PyTools.fock_agrees' depends on axioms: [propext, Classical.choice, Quot.sound]
'CppQED.PyTools.momentumEigen_spec' depends on axioms: [propext, Classical.choice, Quot.sound]
'CppQED.PyTools.ladder_spec' depends on axioms: [propext, Classical.choice, Quot.sound]
'CppQED.PyTools.coherent_partial' depends on axioms: [propext, Classical.choice, Quot.sound]
'CppQED.PyTools.momentumEigen_partial' depends on axioms: [propext, Classical.choice, Quot.sound]
'CppQED.PyText.evsHeader_spec' depends on axioms: [propext, Classical.choice, Quot.sound]
'CppQED.PyText.loadEvs_spec' depends on axioms: [propext, Classical.choice, Quot.sound]
'CppQED.PyText.loadJumps_spec' depends on axioms: [propext, Classical.choice, Quot.sound]
'CppQED.PyText.loadEvs_one_partial' depends on axioms: [propext, Classical.choice, Quot.sound]
'CppQED.PyText.loadEvs_complex_partial' depends on axioms: [propext, Classical.choice, Quot.sound]
'CppQED.PyText.loadJumps_few_partial' depends on axioms: [propext, Classical.choice, Quot.sound]
'CppQED.PyText.loadJumps_resumed_partial' depends on axioms: [propext, Classical.choice, Quot.sound]
'CppQED.Examples.mode_simulates' depends on axioms: [propext, Classical.choice, Quot.sound]
'CppQED.Examples.modeIP_simulates' depends on axioms: [propext, Classical.choice, Quot.sound]
'CppQED.Examples.mode_rates' depends on axioms: [propext, Classical.choice, Quot.sound]
'CppQED.Examples.guide_ladder' depends on axioms: [propext, Classical.choice, Quot.sound]
'CppQED.Examples.guide_correlations' depends on axioms: [propext, Classical.choice, Quot.sound]
'CppQED.Examples.guide_number_partial' depends on axioms: [propext, Classical.choice, Quot.sound]
'CppQED.Examples.xx_couples_partial' depends on axioms: [propext, Classical.choice, Quot.sound]
'CppQED.Examples.xx_wrong_partial' depends on axioms: [propext, Classical.choice, Quot.sound]
'CppQED.Examples.xx_simulates_partial' depends on axioms: [propext, Classical.choice, Quot.sound]
'CppQED.Examples.xx_basic_partial' depends on axioms: [propext, Classical.choice, Quot.sound]
'CppQED.Examples.xx_mixed_partial' depends on axioms: [propext, Classical.choice, Quot.sound]
'CppQED.Examples.modeIP_master_partial' depends on axioms: [propext, Classical.choice, Quot.sound]
'CppQED.Examples.modeIP_not_master_partial' depends on axioms: [propext, Classical.choice, Quot.sound]
'CppQED.Interactions.independent_schroedinger' depends on axioms: [propext, Classical.choice, Quot.sound]
'CppQED.Interactions.independent_evolution' depends on axioms: [propext, Classical.choice, Quot.sound]
'CppQED.Interactions.independent_jump' depends on axioms: [propext, Classical.choice, Quot.sound]
'CppQED.CavScr.fourModes_independent' depends on axioms: [propext, Classical.choice, Quot.sound]
'CppQED.CavScr.fourModes_jump' depends on axioms: [propext, Classical.choice, Quot.sound]
'CppQED.CavScr.tutorialBinary_simulates' depends on axioms: [propext, Classical.choice, Quot.sound]
'CppQED.CavScr.qbitMode_simulates' depends on axioms: [propext, Classical.choice, Quot.sound]
'CppQED.CavScr.optomechanics_simulates' depends on axioms: [propext, Classical.choice, Quot.sound]
'CppQED.CavScr.raman_simulates' depends on axioms: [propext, Classical.choice, Quot.sound]
'CppQED.CavScr.cavityRaman_simulates' depends on axioms: [propext, Classical.choice, Quot.sound]
'CppQED.CavScr.nQbits_simulates' depends on axioms: [propext, Classical.choice, Quot.sound]
'CppQED.CavScr.qbitMode_sch_partial' depends on axioms: [propext, Classical.choice, Quot.sound]
'CppQED.CavScr.optomechanics_ip_partial' depends on axioms: [propext, Classical.choice, Quot.sound]
'CppQED.Interactions.separate_generator' depends on axioms: [propext, Classical.choice, Quot.sound]
'CppQED.Interactions.separate_reduce' depends on axioms: [propext, Classical.choice, Quot.sound]
'CppQED.Interactions.separate_solves' depends on axioms: [propext, Classical.choice, Quot.sound]
'CppQED.Interactions.separate_trajectories' depends on axioms: [propext, Classical.choice, Quot.sound]
'CppQED.Interactions.spectator' depends on axioms: [propext, Classical.choice, Quot.sound]
'CppQED.Interactions.spectator_irrelevant' depends on axioms: [propext, Classical.choice, Quot.sound]
'CppQED.ScriptSys.sine_simulates' depends on axioms: [propext, Classical.choice, Quot.sound]
'CppQED.ScriptSys.sine_general_simulates' depends on axioms: [propext, Classical.choice, Quot.sound]
'CppQED.ScriptSys.sine_throws' depends on axioms: [propext, Classical.choice, Quot.sound]
'CppQED.ScriptSys.sine_symmetry_kept' depends on axioms: [propext, Classical.choice, Quot.sound]
'CppQED.ScriptSys.sineState_bosons' depends on axioms: [propext, Classical.choice, Quot.sound]
'CppQED.ScriptSys.sineState_fermions' depends on axioms: [propext, Classical.choice, Quot.sound]
'CppQED.ScriptSys.sineState_product' depends on axioms: [propext, Classical.choice, Quot.sound]
'CppQED.ScriptSys.product_symmetry' depends on axioms: [propext, Classical.choice, Quot.sound]
'CppQED.ScriptSys.momentumCorrelation_spec' depends on axioms: [propext, Classical.choice, Quot.sound]
'CppQED.ScriptSys.sineState_fermions_partial' depends on axioms: [propext, Classical.choice, Quot.sound]
'CppQED.ScriptSys.sineState_same_partial' depends on axioms: [propext, Classical.choice, Quot.sound]
'CppQED.ScriptSys.tutorialRing_simulates' depends on axioms: [propext, Classical.choice, Quot.sound]
'CppQED.ScriptSys.tutorialRing_throws' depends on axioms: [propext, Classical.choice, Quot.sound]
'CppQED.Relax.mode_decay' depends on axioms: [propext, Classical.choice, Quot.sound]
'CppQED.Relax.mode_relaxation' depends on axioms: [propext, Classical.choice, Quot.sound]
'CppQED.Relax.qbit_decay' depends on axioms: [propext, Classical.choice, Quot.sound]
'CppQED.Relax.photons_derivative' depends on axioms: [propext, Classical.choice, Quot.sound]
'CppQED.Relax.photons_relax' depends on axioms: [propext, Classical.choice, Quot.sound]
'CppQED.Relax.photons_decay' depends on axioms: [propext, Classical.choice, Quot.sound]
'CppQED.Interactions.jaynesCummings_rabi' depends on axioms: [propext, Classical.choice, Quot.sound]
'CppQED.Interactions.rabi_probabilities' depends on axioms: [propext, Classical.choice, Quot.sound]
'CppQED.Interactions.rabi_solves' depends on axioms: [propext, Classical.choice, Quot.sound]
'CppQED.Relax.mode_thermalises' depends on axioms: [propext, Classical.choice, Quot.sound]
'CppQED.Relax.mode_thermalises_from' depends on axioms: [propext, Classical.choice, Quot.sound]
'CppQED.Relax.mode_to_vacuum' depends on axioms: [propext, Classical.choice, Quot.sound]
'CppQED.Relax.highest_bound' depends on axioms: [propext, Classical.choice, Quot.sound]
'CppQED.Relax.populations_relax' depends on axioms: [propext, Classical.choice, Quot.sound]
'CppQED.Relax.coherences_decay' depends on axioms: [propext, Classical.choice, Quot.sound]
'CppQED.Relax.generator_el' depends on axioms: [propext, Classical.choice, Quot.sound]
'CppQED.TestDriver.getOption_value' depends on axioms: [propext, Classical.choice, Quot.sound]
'CppQED.TestDriver.value_unique' depends on axioms: [propext, Classical.choice, Quot.sound]
'CppQED.TestDriver.getOption_cycle' depends on axioms: [propext, Classical.choice, Quot.sound]
'CppQED.TestDriver.runmodes_eq' depends on axioms: [propext, Classical.choice, Quot.sound]
'CppQED.TestDriver.run_eq' depends on axioms: [propext, Classical.choice, Quot.sound]
'CppQED.TestDriver.continuedRun_eq' depends on axioms: [propext, Classical.choice, Quot.sound]
'CppQED.TestDriver.commandLine_eq' depends on axioms: [propext, Classical.choice, Quot.sound]
'CppQED.TestDriver.verifyEv_iff' depends on axioms: [propext, Classical.choice, Quot.sound]
'CppQED.TestDriver.verifyState_iff' depends on axioms: [propext, Classical.choice, Quot.sound]
'CppQED.TestDriver.verifyState_shape' depends on axioms: [propext, Classical.choice, Quot.sound]
'CppQED.TestDriver.verify_full' depends on axioms: [propext, Classical.choice, Quot.sound]
'CppQED.TestDriver.verifyEv_files' depends on axioms: [propext, Classical.choice, Quot.sound]
'CppQED.TestDriver.verifyEv_line_partial' depends on axioms: [propext, Classical.choice, Quot.sound]
'CppQED.TestDriver.verify_outcome_partial' depends on axioms: [propext, Classical.choice, Quot.sound]
'CppQED.TestDriver.verify_unknown_partial' depends on axioms: [propext, Classical.choice, Quot.sound]
'CppQED.TestDriver.agree_not_symmetric_partial' depends on axioms: [propext, Classical.choice, Quot.sound]
'CppQED.TestDriver.verifyState_single_partial' depends on axioms: [propext, Classical.choice, Quot.sound]
'CppQED.TestDriver.stateComparer_iff' depends on axioms: [propext, Classical.choice, Quot.sound]
'CppQED.TestDriver.trajectoryComparer_iff' depends on axioms: [propext, Classical.choice, Quot.sound]
'CppQED.TestDriver.compileTarget_iff' depends on axioms: [propext, Classical.choice, Quot.sound]
'CppQED.TestDriver.finalTemperature_four' depends on axioms: [propext, Classical.choice, Quot.sound]
'CppQED.TestDriver.compileTarget_error_partial' depends on axioms: [propext, Classical.choice, Quot.sound]
'CppQED.TestDriver.trajectoryComparer_vacuous_partial' depends on axioms: [propext, Classical.choice, Quot.sound]
'CppQED.TestDriver.trajectoryComparer_documented_partial' depends on axioms: [propext, Classical.choice, Quot.sound]
'CppQED.TestDriver.stateComparer_parameters_partial' depends on axioms: [propext, Classical.choice, Quot.sound]
'CppQED.TestDriver.finalTemperature_other_partial' depends on axioms: [propext, Classical.choice, Quot.sound]
'CppQED.Interactions.bin_heisenberg' depends on axioms: [propext, Classical.choice, Quot.sound]
'CppQED.Interactions.comp_heisenberg' depends on axioms: [propext, Classical.choice, Quot.sound]
'CppQED.Interactions.bin_energy' depends on axioms: [propext, Classical.choice, Quot.sound]
'CppQED.Interactions.comp_energy' depends on axioms: [propext, Classical.choice, Quot.sound]
'CppQED.Interactions.bin_overlap' depends on axioms: [propext, Classical.choice, Quot.sound]
'CppQED.Interactions.comp_overlap' depends on axioms: [propext, Classical.choice, Quot.sound]
'CppQED.Interactions.composite_energy' depends on axioms: [propext, Classical.choice, Quot.sound]
'CppQED.Interactions.jaynesCummings_energy' depends on axioms: [propext, Classical.choice, Quot.sound]
'CppQED.Interactions.coupledModes_energy' depends on axioms: [propext, Classical.choice, Quot.sound]
'CppQED.Interactions.along_energy' depends on axioms: [propext, Classical.choice, Quot.sound]
'CppQED.Interactions.along_quasimomentum' depends on axioms: [propext, Classical.choice, Quot.sound]
'CppQED.Interactions.particle_momenta' depends on axioms: [propext, Classical.choice, Quot.sound]
'CppQED.ApplyGen.generate_source' depends on axioms: [propext, Quot.sound]
'CppQED.ApplyGen.generate_apply' depends on axioms: [propext, Classical.choice, Quot.sound]
'CppQED.ApplyGen.generate_matrix' depends on axioms: [propext, Classical.choice, Quot.sound]
'CppQED.Counting.element_counts' depends on axioms: [propext, Classical.choice, Quot.sound]
'CppQED.Counting.mode_counts' depends on axioms: [propext, Classical.choice, Quot.sound]
'CppQED.Counting.qbit_counts' depends on axioms: [propext, Classical.choice, Quot.sound]
'CppQED.Counting.composite_counts' depends on axioms: [propext, Classical.choice, Quot.sound]
'CppQED.Counting.binary_counts' depends on axioms: [propext, Classical.choice, Quot.sound]
'CppQED.Counting.jaynesCummings_counts' depends on axioms: [propext, Classical.choice, Quot.sound]
'CppQED.Counting.jaynesCummings_phaseNoise_counts' depends on axioms: [propext, Classical.choice, Quot.sound]
'CppQED.Counting.coupledModes_counts' depends on axioms: [propext, Classical.choice, Quot.sound]
'CppQED.Counting.qbitsInCavity_counts' depends on axioms: [propext, Classical.choice, Quot.sound]
'CppQED.Counting.losses_counted' depends on axioms: [propext, Classical.choice, Quot.sound]
'CppQED.StateFile.sessions_read' depends on axioms: [propext, Classical.choice, Quot.sound]
'CppQED.StateFile.plain_continues' depends on axioms: [propext, Classical.choice, Quot.sound]
'CppQED.StateFile.missing_throws' depends on axioms: [propext]
'CppQED.StateFile.overwrite_read' depends on axioms: [propext, Classical.choice, Quot.sound]
'CppQED.StateFile.rejected_throws' depends on axioms: [propext, Classical.choice, Quot.sound]
'CppQED.StateFile.builds_read_partial' depends on axioms: [propext, Classical.choice, Quot.sound]
'CppQED.StateFile.mixed_lost' depends on axioms: [propext, Classical.choice, Quot.sound]
'CppQED.Traj.crash_buffered_partial' depends on axioms: [propext, Classical.choice, Quot.sound]
'CppQED.Traj.crash_restarts' depends on axioms: [propext, Classical.choice, Quot.sound]
'CppQED.Traj.crash_unflushed' depends on axioms: [propext]
'CppQED.Relax.photon_statistics' depends on axioms: [propext, Classical.choice, Quot.sound]
'CppQED.Relax.populations_decay' depends on axioms: [propext, Classical.choice, Quot.sound]
'CppQED.Relax.generating' depends on axioms: [propext, Classical.choice, Quot.sound]
'CppQED.MultiEl.multiLevel_rates' depends on axioms: [propext, Classical.choice, Quot.sound]
'CppQED.MultiEl.populations_rates' depends on axioms: [propext, Classical.choice, Quot.sound]
'CppQED.MultiEl.coherences_decay' depends on axioms: [propext, Classical.choice, Quot.sound]
'CppQED.MultiEl.rates_exist' depends on axioms: [propext, Classical.choice, Quot.sound]
'CppQED.MultiEl.lambda_rates' depends on axioms: [propext, Classical.choice, Quot.sound]
'CppQED.Interactions.jaynesCummings_single' depends on axioms: [propext, Classical.choice, Quot.sound]
'CppQED.Interactions.singleState_populations' depends on axioms: [propext, Classical.choice, Quot.sound]
'CppQED.Interactions.amplitudes_exist' depends on axioms: [propext, Classical.choice, Quot.sound]
'CppQED.Interactions.network_single' depends on axioms: [propext, Classical.choice, Quot.sound]
'CppQED.Interactions.hops_norm' depends on axioms: [propext, Classical.choice, Quot.sound]
'CppQED.Interactions.hops_exist' depends on axioms: [propext, Classical.choice, Quot.sound]
'CppQED.Interactions.photonState_populations' depends on axioms: [propext, Classical.choice, Quot.sound]
'CppQED.Pars.registerAll_iff' depends on axioms: [propext, Classical.choice, Quot.sound]
'CppQED.Pars.numbered_groups' depends on axioms: [propext, Classical.choice, Quot.sound]
'CppQED.Pars.numbered_copies' depends on axioms: [propext, Classical.choice, Quot.sound]
'CppQED.Pars.twoModes_partial' depends on axioms: [propext, Classical.choice, Quot.sound]
'CppQED.Pars.functionScan_twice' depends on axioms: [propext, Classical.choice, Quot.sound]
'CppQED.Pars.spin_qbit' depends on axioms: [propext, Classical.choice, Quot.sound]
'CppQED.Revival.free_motion' depends on axioms: [propext, Classical.choice, Quot.sound]
'CppQED.Revival.revival' depends on axioms: [propext, Classical.choice, Quot.sound]
'CppQED.Revival.half_revival' depends on axioms: [propext, Classical.choice, Quot.sound]
'CppQED.TestDriver.functionComparer_iff' depends on axioms: [propext, Classical.choice, Quot.sound]
'CppQED.TinyIO.input_text' depends on axioms: [propext, Classical.choice, Quot.sound]
'CppQED.TinyIO.complex_understands' depends on axioms: [propext, Classical.choice, Quot.sound]
'CppQED.TinyIO.output_input' depends on axioms: [propext, Classical.choice, Quot.sound]
'CppQED.TinyIO.complex_written' depends on axioms: [propext, Classical.choice, Quot.sound]
'CppQED.TinyIO.commandLine_vector' depends on axioms: [propext, Classical.choice, Quot.sound]
'CppQED.TinyIO.input_iff_partial' depends on axioms: [propext, Classical.choice, Quot.sound]
'CppQED.TinyIO.input_refuses' depends on axioms: [propext, Classical.choice, Quot.sound]
'CppQED.TinyIO.input_forgotten' depends on axioms: [propext, Classical.choice, Quot.sound]
'CppQED.TinyIO.commandLine_forgotten' depends on axioms: [propext, Classical.choice, Quot.sound]
'CppQED.TinyIO.commandLine_refused' depends on axioms: [propext, Classical.choice, Quot.sound]
'CppQED.Slice.left_columns' depends on axioms: [propext, Classical.choice, Quot.sound]
'CppQED.Slice.right_rows' depends on axioms: [propext, Classical.choice, Quot.sound]
'CppQED.Slice.left_columns₂' depends on axioms: [propext, Classical.choice, Quot.sound]
'CppQED.Slice.sandwich' depends on axioms: [propext, Classical.choice, Quot.sound]
'CppQED.ExpValues.orderedDict_refines' depends on axioms: [propext, Classical.choice, Quot.sound]
'CppQED.ExpValues.delete_iff' depends on axioms: [propext, Classical.choice, Quot.sound]
'CppQED.ExpValues.collection_new' depends on axioms: [propext, Classical.choice, Quot.sound]
'CppQED.ExpValues.collection_length' depends on axioms: [propext, Classical.choice, Quot.sound]
'CppQED.ExpValues.subsystem_titles' depends on axioms: [propext, Classical.choice, Quot.sound]
'CppQED.ExpValues.subsystems_order' depends on axioms: [propext, Classical.choice, Quot.sound]
'CppQED.ExpValues.copy_partial' depends on axioms: [propext, Classical.choice, Quot.sound]
'CppQED.ExpValues.copy_titles' depends on axioms: [propext, Classical.choice, Quot.sound]
'CppQED.Fuzzy.trichotomy' depends on axioms: [propext, Classical.choice, Quot.sound]
'CppQED.Fuzzy.eq_refl_symm' depends on axioms: [propext, Classical.choice, Quot.sound]
'CppQED.Fuzzy.lt_order' depends on axioms: [propext, Classical.choice, Quot.sound]
'CppQED.Fuzzy.eq_of_close' depends on axioms: [propext, Classical.choice, Quot.sound]
'CppQED.Fuzzy.lt_of_far' depends on axioms: [propext, Classical.choice, Quot.sound]
'CppQED.Fuzzy.eq_zero_iff' depends on axioms: [propext, Classical.choice, Quot.sound]
'CppQED.Fuzzy.derived' depends on axioms: [propext, Classical.choice, Quot.sound]
'CppQED.Fuzzy.eq_between_partial' depends on axioms: [propext, Classical.choice, Quot.sound]
'CppQED.Fuzzy.drift' depends on axioms: [propext, Classical.choice, Quot.sound]
'CppQED.Fuzzy.eq_not_transitive' depends on axioms: [propext, Classical.choice, Quot.sound]
'CppQED.TinyArrays.deepCopy_independent' depends on axioms: [propext, Quot.sound]
'CppQED.TinyArrays.deepFill_independent' depends on axioms: [propext, Quot.sound]
'CppQED.TinyArrays.shallowFill_shares' depends on axioms: [propext]
'CppQED.TinyArrays.negate_independent' depends on axioms: [propext, Classical.choice, Quot.sound]
