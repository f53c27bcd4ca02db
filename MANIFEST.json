{
 "claims": [
  {
   "property": "C01",
   "status": "proved",
   "theorems": [
    "Verif.Utils.shift_int_length",
    "Verif.Utils.shift_int_moves",
    "Verif.Utils.shift_int_fills",
    "Verif.Utils.shift_int_comp",
    "Verif.Utils.shift_interpolates"
   ],
   "note": "Integer and fractional shifts; ndimage.shift(order=1) semantics assumed as stated in DESIGN.md."
  },
  {
   "property": "C02",
   "status": "partial",
   "theorems": [
    "Verif.Utils.resample_rejects",
    "Verif.Utils.resample_accepts",
    "Verif.Utils.resample_trivial",
    "Verif.Utils.resample_integer_iff",
    "Verif.Utils.resample_integer_partial",
    "Verif.Utils.resample_claim_false",
    "Verif.Utils.resample_nearest"
   ],
   "note": "The docstring promise is false in general (witness 1.25 MHz / 77 Hz). Exact characterisation of when it holds, and proof for prime reduced denominators."
  },
  {
   "property": "C03",
   "status": "partial",
   "theorems": [
    "Verif.Utils.makeDecreasing_strict",
    "Verif.Utils.makeDecreasing_nodes",
    "Verif.Utils.makeDecreasing_agrees",
    "Verif.Utils.makeDecreasing_le",
    "Verif.Utils.makeDecreasing_not_positive"
   ],
   "note": "Strictly decreasing, agrees at running minima and never above a non-zero input: proved. Positivity is refuted (makeDecreasing_not_positive)."
  },
  {
   "property": "C04",
   "status": "proved",
   "theorems": [
    "Verif.Utils.slope_optimal",
    "Verif.Utils.slope_unique",
    "Verif.Utils.slope_affine",
    "Verif.Utils.slope_translation",
    "Verif.Utils.slope_linear",
    "Verif.Utils.slope_noremove"
   ],
   "note": ""
  },
  {
   "property": "C05",
   "status": "proved",
   "theorems": [
    "Verif.Utils.fillNegatives_length",
    "Verif.Utils.fillNegatives_preserves",
    "Verif.Utils.fillNegatives_none",
    "Verif.Utils.fillNegatives_pos",
    "Verif.Utils.fillNegatives_idem",
    "Verif.Utils.fillNegatives_interior",
    "Verif.Utils.fillNegatives_left",
    "Verif.Utils.fillNegatives_right"
   ],
   "note": ""
  },
  {
   "property": "C06",
   "status": "proved",
   "theorems": [
    "Verif.Utils.powertrace_law",
    "Verif.Utils.muon_consistent",
    "Verif.Utils.muon_recovers"
   ],
   "note": ""
  },
  {
   "property": "C07",
   "status": "partial",
   "theorems": [
    "Verif.Utils.energy_needs_time",
    "Verif.Utils.energy_needs_baseline",
    "Verif.Utils.energy_fs_time",
    "Verif.Utils.energy_baseline_zero",
    "Verif.Utils.energy_baseline_zero_measured",
    "Verif.Utils.energy_integrand",
    "Verif.Utils.energy_baseline_measured",
    "Verif.Utils.energy_time_length_partial",
    "Verif.Utils.energy_two_times_violated",
    "Verif.Utils.energy_two_samples_violated",
    "Verif.Utils.energy_constant"
   ],
   "note": "Violated: two time stamps are accepted for a trace of any length (np.trapz broadcasts their difference), and any time stamps for a trace of two samples. Proved otherwise."
  },
  {
   "property": "C08",
   "status": "proved",
   "theorems": [
    "Verif.Utils.estimateG_powerlaw",
    "Verif.Utils.gVal_deriv_p",
    "Verif.Utils.gVal_deriv_tc",
    "Verif.Utils.gVal_deriv_tb",
    "Verif.Utils.estimateG_error",
    "Verif.Utils.estimateG_error_p"
   ],
   "note": ""
  },
  {
   "property": "C09",
   "status": "proved",
   "theorems": [
    "Verif.Utils.calcOffset_periodic"
   ],
   "note": "Offset value; the returned standard error is C106, arrays of other shapes are C120."
  },
  {
   "property": "C10",
   "status": "proved",
   "theorems": [
    "Verif.Cut.removeoutliers_spec",
    "Verif.Cut.removeoutliers_symmetric"
   ],
   "note": "Data are reals or +infinity; the value scipy reports for the skewness of constant data is a parameter."
  },
  {
   "property": "C11",
   "status": "proved",
   "theorems": [
    "Verif.Cut.iterstat_returns",
    "Verif.Cut.iterstat_negative_precision",
    "Verif.Cut.iterstat_stats"
   ],
   "note": "Real arithmetic. With a negative precision the loop need not end (shown for [0,1])."
  },
  {
   "property": "C12",
   "status": "proved",
   "theorems": [
    "Verif.Cut.itercov_malformed",
    "Verif.Cut.itercov_terminates",
    "Verif.Cut.itercov_singular",
    "Verif.Cut.cov_posSemidef",
    "Verif.Cut.itercov_few"
   ],
   "note": "A singular covariance of the selected events raises LinAlgError, as in numpy for exactly singular matrices."
  },
  {
   "property": "C13",
   "status": "proved",
   "theorems": [
    "Verif.Cut.autocuts_survivors",
    "Verif.Cut.autocuts_all_off",
    "Verif.Cut.autocuts_returns"
   ],
   "note": "For every outcome of the random selection in the slope stage."
  },
  {
   "property": "C14",
   "status": "partial",
   "theorems": [
    "Verif.Cut.slopecut_keeps_all",
    "Verif.Cut.slopecut_violated",
    "Verif.Cut.autocuts_slope_no_effect"
   ],
   "note": "The claim is false: slopecut starts its mask from ones, so it never removes a trace. Proved: it keeps everything, and the stage has no effect on autocuts unless it raises."
  },
  {
   "property": "C15",
   "status": "partial",
   "theorems": [
    "Verif.Cut.getMuonCut_violated",
    "Verif.Cut.getMuonCut_partial"
   ],
   "note": "The claim is false: every non-empty input raises (undefined name)."
  },
  {
   "property": "C16",
   "status": "partial",
   "theorems": [
    "Verif.Cut.symmetrizedist_kept",
    "Verif.Cut.symmetrizedist_balanced_partial",
    "Verif.Cut.symmetrizedist_rest",
    "Verif.Cut.symmetrizedist_violated"
   ],
   "note": "False as stated: points are removed only from the lower side, so a mirrored pair whose upper bin is fuller stays unbalanced (symmetrizedist_violated). Proved: exactly which points are kept for every outcome of the random selection, and balance wherever the lower bin is at least as full."
  },
  {
   "property": "C17",
   "status": "proved",
   "theorems": [
    "Verif.Noise.fold_calcPsd",
    "Verif.Noise.calcPsd_symm",
    "Verif.Noise.foldpsd_total",
    "Verif.Noise.calcPsd_parseval",
    "Verif.Noise.calcPsd_bins"
   ],
   "note": ""
  },
  {
   "property": "C18",
   "status": "partial",
   "theorems": [
    "Verif.Noise.noisePsd_partial",
    "Verif.Noise.noisePsd_violated",
    "Verif.Noise.noisePsd_parts"
   ],
   "note": "false at zero frequency and Nyquist, where Noise.calculate_psd is twice calc_psd (proved); equal in every other bin"
  },
  {
   "property": "C19",
   "status": "partial",
   "theorems": [
    "Verif.Noise.smoothPsd_partial",
    "Verif.Noise.smoothPsd_increasing_violated"
   ],
   "note": "holds when at least two points survive; a PSD that never drops below its first value gives nan (proved)"
  },
  {
   "property": "C20",
   "status": "partial",
   "theorems": [
    "Verif.Noise.create_fresh",
    "Verif.Noise.current_partial",
    "Verif.Noise.recalculate",
    "Verif.Noise.psd_stale_violated",
    "Verif.Noise.uncorr_stale_violated"
   ],
   "note": "remove_trace_slope leaves old results in place and calculate_uncorr_noise reuses the old CSD (both proved with witnesses); holds when slopes are removed first"
  },
  {
   "property": "C21",
   "status": "proved",
   "theorems": [
    "Verif.Noise.reachable_csd",
    "Verif.Noise.uncorr_split"
   ],
   "note": "scipy.signal.csd modelled for one Hann-windowed segment"
  },
  {
   "property": "C22",
   "status": "proved",
   "theorems": [
    "Verif.Iv.calcIv_laws",
    "Verif.Iv.calcIv_fit",
    "Verif.Iv.calcIv_exact"
   ],
   "note": "curve_fit is the closed-form weighted least-squares line. Padded nan points and a zero current are excluded from the laws."
  },
  {
   "property": "C23",
   "status": "partial",
   "theorems": [
    "Verif.Iv.rload_partial",
    "Verif.Iv.init_malformed",
    "Verif.Iv.rload_violated",
    "Verif.Iv.init_layout"
   ],
   "note": "False for the documented three-dimensional shape: the attribute is never assigned and calc_iv cannot succeed. Proved for the other three shapes."
  },
  {
   "property": "C24",
   "status": "partial",
   "theorems": [
    "Verif.Iv.calcIv_point_errors",
    "Verif.Iv.calcIv_fit_errors_partial",
    "Verif.Iv.rfitErr_eq_rfit",
    "Verif.Iv.rfitErr_violated"
   ],
   "note": "False for rfit_err, which holds the resistance itself. All other errors are proved to be first-order propagation."
  },
  {
   "property": "C25",
   "status": "proved",
   "theorems": [
    "Verif.OF.argmin_error_iff",
    "Verif.OF.argmin_only_valueError",
    "Verif.OF.window_card",
    "Verif.OF.window_partition",
    "Verif.OF.window_full",
    "Verif.OF.argmin_none_iff",
    "Verif.OF.argmin_ok_admissible",
    "Verif.OF.argmin_total"
   ],
   "note": "every window length, centre and trace length; the window is exactly the code's slice"
  },
  {
   "property": "C26",
   "status": "proved",
   "theorems": [
    "Verif.OF.argmin_none_iff",
    "Verif.OF.argmin_ok_admissible",
    "Verif.OF.argmin_total"
   ],
   "note": ""
  },
  {
   "property": "C27",
   "status": "partial",
   "theorems": [
    "Verif.OF.direction_error_iff",
    "Verif.OF.direction_admissible",
    "Verif.OF.direction_sign_partial",
    "Verif.OF.direction_interp_violated"
   ],
   "note": "holds without interpolation; with interpolate_t0=True the returned amplitude can have the forbidden sign (proved with a witness)"
  },
  {
   "property": "C28",
   "status": "proved",
   "theorems": [
    "Verif.OF.nodelay_optimal",
    "Verif.OF.delay_arrays_optimal",
    "Verif.OF.integralnorm_template"
   ],
   "note": ""
  },
  {
   "property": "C29",
   "status": "proved",
   "theorems": [
    "Verif.OF.withdelay_optimal",
    "Verif.OF.withdelay_global"
   ],
   "note": "without interpolation; every window and direction constraint"
  },
  {
   "property": "C30",
   "status": "proved",
   "theorems": [
    "Verif.OF.recovery_nodelay",
    "Verif.OF.recovery_withdelay"
   ],
   "note": ""
  },
  {
   "property": "C31",
   "status": "proved",
   "theorems": [
    "Verif.OF.withdelay_scale",
    "Verif.OF.nodelay_linear",
    "Verif.OF.delay_arrays_additive",
    "Verif.OF.delay_arrays_shift",
    "Verif.OF.nodelay_shift",
    "Verif.OF.withdelay_chi2_shift"
   ],
   "note": "scaling includes interpolated fits"
  },
  {
   "property": "C32",
   "status": "proved",
   "theorems": [
    "Verif.OF.ac_offset_invariant",
    "Verif.OF.dc_offset_matters",
    "Verif.OF.baseline_offset_invariant"
   ],
   "note": "every public method"
  },
  {
   "property": "C33",
   "status": "proved",
   "theorems": [
    "Verif.OF.history_independent"
   ],
   "note": "every call sequence, by a representation invariant on the caches"
  },
  {
   "property": "C34",
   "status": "partial",
   "theorems": [
    "Verif.OF.Fun.ofamp_agrees",
    "Verif.OF.Fun.ofamp_total_partial",
    "Verif.OF.Fun.ofamp_valueError_iff",
    "Verif.OF.Fun.ofamp_emptyWindow_violated",
    "Verif.OF.Fun.ofamp_nodelay_agrees",
    "Verif.OF.Fun.ofampSigma_agrees",
    "Verif.OF.Fun.ofampPileup_agrees_partial",
    "Verif.OF.Fun.ofampPileup_auto_partial",
    "Verif.OF.Fun.ofampPileupStationary_agrees",
    "Verif.OF.Fun.chi2lowfreq_agrees",
    "Verif.OF.Fun.chi2Nopulse_agrees"
   ],
   "note": "agreement for arrays of traces; the implementations differ on an empty search window (IndexError against a null fit), proved"
  },
  {
   "property": "C35",
   "status": "proved",
   "theorems": [
    "Verif.OF.lowfreq_nonneg_mono",
    "Verif.OF.lowfreq_negative",
    "Verif.OF.lowfreq_full",
    "Verif.OF.lowfreq_le_full",
    "Verif.OF.lowfreq_nyquist"
   ],
   "note": ""
  },
  {
   "property": "C36",
   "status": "partial",
   "theorems": [
    "Verif.OF.pileup_optimal_partial",
    "Verif.OF.pileup_improves",
    "Verif.OF.pileup_total",
    "Verif.OF.pileup_fractional_violated"
   ],
   "note": "holds for a first pulse on a sample; for t1 between samples the reported chi2 can be negative (proved with a witness)"
  },
  {
   "property": "C37",
   "status": "partial",
   "theorems": [
    "Verif.OF.stationary_optimal_partial",
    "Verif.OF.stationary_zero_violated",
    "Verif.OF.stationary_nan_iff"
   ],
   "note": "holds at every non-zero second delay; at delay zero the amplitudes are wrong unless norm = 1 (proved with a witness)"
  },
  {
   "property": "C38",
   "status": "proved",
   "theorems": [
    "Verif.OF.baseline_joint",
    "Verif.OF.baseline_optimal",
    "Verif.OF.baseline_offset_invariant",
    "Verif.OF.baseline_defined"
   ],
   "note": ""
  },
  {
   "property": "C39",
   "status": "proved",
   "theorems": [
    "Verif.OF.parabola_vertex",
    "Verif.OF.interpolated_amp",
    "Verif.OF.withdelay_refined"
   ],
   "note": ""
  },
  {
   "property": "C40",
   "status": "proved",
   "theorems": [
    "Verif.OF.energyResolution_scaling",
    "Verif.OF.timeResolution_scaling",
    "Verif.OF.timeResolution_pos"
   ],
   "note": ""
  },
  {
   "property": "C41",
   "status": "partial",
   "theorems": [
    "Verif.NonLin.fourpole_transform",
    "Verif.NonLin.threepole_transform",
    "Verif.NonLin.twopole_transform",
    "Verif.NonLin.twopole_scaled_partial",
    "Verif.NonLin.twopole_swapped_violated",
    "Verif.NonLin.multipole_time",
    "Verif.NonLin.twopole_time",
    "Verif.NonLin.onepole_eq",
    "Verif.NonLin.residuals_chi2"
   ],
   "note": "With scale_amplitude and rise time larger than fall time the frequency model is minus the transform of the time model (twopole_swapped_violated); proved in every other case."
  },
  {
   "property": "C42",
   "status": "partial",
   "theorems": [
    "Verif.NonLin.guess_length",
    "Verif.NonLin.taurise_required",
    "Verif.NonLin.bounds_contain",
    "Verif.NonLin.fit_defined_partial",
    "Verif.NonLin.nonpositive_violated",
    "Verif.NonLin.polecount_violated",
    "Verif.NonLin.polecount_stale_violated",
    "Verif.NonLin.default_bounds",
    "Verif.NonLin.state_after"
   ],
   "note": "Unsupported pole counts are not rejected with ValueError: TypeError on a new object, a silent one-pole fit with the stale rise time otherwise. Non-positive guess entries always raise ValueError (x_scale)."
  },
  {
   "property": "C43",
   "status": "proved",
   "theorems": [
    "Verif.Didv.tes_roundtrip",
    "Verif.Didv.fit_roundtrip"
   ],
   "note": "Singular parameter values excluded by hypothesis; they raise or give nan in the model as in the code."
  },
  {
   "property": "C44",
   "status": "proved",
   "theorems": [
    "Verif.Didv.compleximpedance_doc",
    "Verif.Didv.complexadmittance_recip",
    "Verif.Didv.compleximpedance_conj",
    "Verif.Didv.missing_tau0_ignored"
   ],
   "note": ""
  },
  {
   "property": "C45",
   "status": "proved",
   "theorems": [
    "Verif.Didv.falltimes_one",
    "Verif.Didv.falltimes_two",
    "Verif.Didv.falltimes_three",
    "Verif.Didv.pole_models"
   ],
   "note": "fsolve is an oracle assumed to have found a root."
  },
  {
   "property": "C46",
   "status": "partial",
   "theorems": [
    "Verif.Didv.drive_spectrum",
    "Verif.Didv.response_spectrum",
    "Verif.Didv.deconvolve_partial",
    "Verif.Didv.unexcited_unflagged_violated",
    "Verif.Didv.odd_length_violated"
   ],
   "note": "Bins without drive of an exact response are 0/0 and not flagged; element n//2 of odd traces is zeroed."
  },
  {
   "property": "C47",
   "status": "partial",
   "theorems": [
    "Verif.Didv.create_spec",
    "Verif.Didv.processtraces_periods",
    "Verif.Didv.processtraces_short",
    "Verif.Didv.offset_unchanged_partial",
    "Verif.Didv.offset_accumulates_violated"
   ],
   "note": "Truncation, flat indices and errors proved; with add180phase every call shifts the time offset by another half period (violated), without it the offset is unchanged."
  },
  {
   "property": "C48",
   "status": "proved",
   "theorems": [
    "Verif.Didv.guess_in_bounds",
    "Verif.Didv.guess_exists",
    "Verif.Didv.guess_lowfreq"
   ],
   "note": "For every history of calls on a new object, every pole count and loop gain decision, assuming only that the optimiser returns points within its bounds and sgamp*rsh > 0."
  },
  {
   "property": "C49",
   "status": "proved",
   "theorems": [
    "Verif.Didv.dofit_invalid",
    "Verif.Didv.fitresult_latest",
    "Verif.Didv.fitresult_fresh"
   ],
   "note": "Over all histories of processtraces and dofit; an unknown order gives None from fitresult."
  },
  {
   "property": "C50",
   "status": "partial",
   "theorems": [
    "Verif.Didv.priors_offset_partial",
    "Verif.Didv.priors_offset_violated",
    "Verif.Didv.mixGuess_spec"
   ],
   "note": "True without add180phase; with it the helper object is shifted by another half period."
  },
  {
   "property": "C51",
   "status": "partial",
   "theorems": [
    "Verif.Ibis.analyze_laws",
    "Verif.Ibis.analyze_currents",
    "Verif.Ibis.analyze_sc",
    "Verif.Ibis.analyze_recovers",
    "Verif.Ibis.analyze_nosc",
    "Verif.Ibis.analyze_point_errors",
    "Verif.Ibis.analyze_ibiasOff_error_partial",
    "Verif.Ibis.ioffErr_violated",
    "Verif.Ibis.analyze_given_offsets"
   ],
   "note": "Circuit laws, fits, decoding of synthetic data and the r0/ptes/ibias_off errors are proved for all inputs; the derivative of ioff with respect to the normal slope misses a factor, proved wrong on a concrete object (ioffErr_violated)."
  },
  {
   "property": "C52",
   "status": "partial",
   "theorems": [
    "Verif.Ibis.analyze_sc_accepts_partial",
    "Verif.Ibis.analyze_nosc_accepts_partial",
    "Verif.Ibis.scalar_offset_violated",
    "Verif.Ibis.scalar_rp_violated",
    "Verif.Ibis.default_chan_names_violated",
    "Verif.Ibis.init_malformed",
    "Verif.Ibis.init_layout"
   ],
   "note": "The accepted shapes are proved to work; scalar offsets, scalar rp_guess with 1-d/2-d data and 3-d rp_guess without superconducting fit are proved never to work."
  },
  {
   "property": "C53",
   "status": "proved",
   "theorems": [
    "Verif.Sim.total_defined",
    "Verif.Sim.noise_budget",
    "Verif.Sim.power_noise_formula",
    "Verif.Sim.noise_nonneg",
    "Verif.Sim.noise_sources",
    "Verif.Sim.noise_normal_sc"
   ],
   "note": "Also the exact set of parameters where the totals are defined, and the closed forms of the power noises."
  },
  {
   "property": "C54",
   "status": "proved",
   "theorems": [
    "Verif.Sim.dIdV_agrees",
    "Verif.Sim.dIdV_limits",
    "Verif.Sim.onePole_agrees",
    "Verif.Sim.dIdP_agrees"
   ],
   "note": ""
  },
  {
   "property": "C55",
   "status": "partial",
   "theorems": [
    "Verif.Sim.load_normal_violated",
    "Verif.Sim.load_identity_violated",
    "Verif.Sim.load_unknown",
    "Verif.Sim.load_transition_partial",
    "Verif.Sim.load_superconducting_partial",
    "Verif.Sim.load_priors_transition_partial",
    "Verif.Sim.load_priors_superconducting_partial",
    "Verif.Sim.load_priors_missing",
    "Verif.Sim.load_missing"
   ],
   "note": "'normal' always raises, and noise types are compared with `is`, so equal strings which are other objects are refused; interned 'transition' and 'superconducting' give a device whose response is the fitted admittance."
  },
  {
   "property": "C56",
   "status": "partial",
   "theorems": [
    "Verif.Sim.ballistic_bounds",
    "Verif.Sim.diffusive_bounds_partial",
    "Verif.Sim.diffusive_equal_violated"
   ],
   "note": "At tbath = tc the diffusive factor is 0/0 and the constructor raises ZeroDivisionError."
  },
  {
   "property": "C57",
   "status": "proved",
   "theorems": [
    "Verif.Nsmb.nsmb_optimal",
    "Verif.Nsmb.nsmb_chi2_residual",
    "Verif.Nsmb.nsmb_defined",
    "Verif.Nsmb.con_reported"
   ],
   "note": "Proved with the Moore-Penrose inverse, so linearly dependent templates are included; numpy's pinv cutoff rcond is not modelled. con_reported gives the corresponding statement for of_nsmb_con: reported residual, chi2 and delay belong to the reported amplitudes and the chi2 is the smallest of the constrained fits in the window."
  },
  {
   "property": "C58",
   "status": "partial",
   "theorems": [
    "Verif.Nsmb.mb_optimal_partial",
    "Verif.Nsmb.mb_two_partial",
    "Verif.Nsmb.mb_polarity_violated",
    "Verif.Nsmb.con_allowed_partial",
    "Verif.Nsmb.con_polarity_violated"
   ],
   "note": "Violated by the code: both fits drop disallowed templates once or twice and never recheck the last refit; concrete five-template witnesses return -1 for a template constrained to be positive. Proved instead: of_mb's amplitudes are optimal among those vanishing on the dropped templates, a two-background constrained fit obeys the constraint whenever it returns, and an allowed unconstrained optimum is returned unchanged."
  },
  {
   "property": "C59",
   "status": "partial",
   "theorems": [
    "Verif.Nsmb.getPt_gram_partial",
    "Verif.Nsmb.getPt_single_violated",
    "Verif.Nsmb.mb_single_violated"
   ],
   "note": "Violated: any mask with a single active template raises (IndexError in of_nsmb_getPt, ValueError in of_mb). For every other mask the result is the restricted Gram matrix."
  },
  {
   "property": "C60",
   "status": "partial",
   "theorems": [
    "Verif.Nsmb.ttl_columns",
    "Verif.Nsmb.ttl_polarity",
    "Verif.Nsmb.ttl_window",
    "Verif.Nsmb.ttl_defined_partial",
    "Verif.Nsmb.ttl_fast_violated",
    "Verif.Nsmb.ttl_notch_violated",
    "Verif.Nsmb.ttl_nan_violated",
    "Verif.Nsmb.slope_dc"
   ],
   "note": "Whenever the call returns, templates and window are as claimed for every length, rate and notch. The call is defined when the spacing is at least one bin and exceeds the notch by one bin; it raises for spacings up to half a bin and for notches reaching past the end."
  },
  {
   "property": "C61",
   "status": "partial",
   "theorems": [
    "Verif.OF.interpolate_total_partial",
    "Verif.OF.interpolate_lastbin_violated"
   ],
   "note": "fails with IndexError when the best delay is in the last bin (proved with a witness)"
  },
  {
   "property": "C62",
   "status": "proved",
   "theorems": [
    "Verif.Noise.removeSlope_zero"
   ],
   "note": ""
  },
  {
   "property": "C63",
   "status": "proved",
   "theorems": [
    "Verif.Noise.corrcoeff_range"
   ],
   "note": ""
  },
  {
   "property": "C64",
   "status": "proved",
   "theorems": [
    "Verif.Noise.genNoise_fft",
    "Verif.Noise.genNoise_psd",
    "Verif.Noise.genNoise_mean"
   ],
   "note": ""
  },
  {
   "property": "C65",
   "status": "proved",
   "theorems": [
    "Verif.Cut.iterstat_affine",
    "Verif.Cut.removeoutliers_affine"
   ],
   "note": "Real arithmetic."
  },
  {
   "property": "C66",
   "status": "partial",
   "theorems": [
    "Verif.Cut.removeoutliers_keeps_partial",
    "Verif.Cut.removeoutliers_empty_violated"
   ],
   "note": "False: of [0,0,3] every point is rejected. Proved when fewer than half of the points are at the minimum and fewer than half at the maximum."
  },
  {
   "property": "C67",
   "status": "partial",
   "theorems": [
    "Verif.Iv.findnormalinds_partial",
    "Verif.Iv.findnormalinds_violated"
   ],
   "note": "False: when the linear stretch ends with the data (or at nan padding) its last point is left out. Proved: every accepted stretch is linear, and the guess is at most one point short."
  },
  {
   "property": "C68",
   "status": "partial",
   "theorems": [
    "Verif.Ibis.analyze_ibiasOff_error_partial",
    "Verif.Ibis.analyze_current_errors_partial",
    "Verif.Ibis.resistanceErr_violated",
    "Verif.Ibis.offsetErr_nosc_violated",
    "Verif.Ibis.ioffErr_violated"
   ],
   "note": "Errors of currents, bias offset and the combination for rnorm are proved; those of rfit, rp, ioff and (without superconducting fit) the offsets are proved wrong on a concrete object."
  },
  {
   "property": "C69",
   "status": "partial",
   "theorems": [
    "Verif.Didv.falltimes_two",
    "Verif.Didv.falltimes_underdamped_violated",
    "Verif.Didv.falltimes_overdamped_partial",
    "Verif.Didv.twoPole_solvable_iff"
   ],
   "note": "Underdamped responses have no real fall times."
  },
  {
   "property": "C70",
   "status": "partial",
   "theorems": [
    "Verif.Didv.zero_offset_violated",
    "Verif.Didv.optimiser_runs_partial"
   ],
   "note": "dt0=0 (without add180phase) makes every fit raise since least_squares requires positive x_scale; starting points without zeros reach the optimiser."
  },
  {
   "property": "C71",
   "status": "proved",
   "theorems": [
    "Verif.Didv.result_reproduces_fit"
   ],
   "note": "All three models."
  },
  {
   "property": "C72",
   "status": "proved",
   "theorems": [
    "Verif.Didv.residual_chi2",
    "Verif.Didv.fit_better_branch"
   ],
   "note": ""
  },
  {
   "property": "C73",
   "status": "proved",
   "theorems": [
    "Verif.Didv.didvmean_of_mean",
    "Verif.Didv.didvmean_recovers"
   ],
   "note": "At bins with drive, other than n//2, where no trace is flagged."
  },
  {
   "property": "C74",
   "status": "partial",
   "theorems": [
    "Verif.Didv.single_trace_violated",
    "Verif.Didv.optimiser_runs_partial"
   ],
   "note": "A single trace has zero spread, so the residuals are not finite and least_squares raises."
  },
  {
   "property": "C75",
   "status": "proved",
   "theorems": [
    "Verif.Sim.energyRes_defined",
    "Verif.Sim.energyRes_scaling",
    "Verif.Sim.energyRes_monotone"
   ],
   "note": ""
  },
  {
   "property": "C76",
   "status": "partial",
   "theorems": [
    "Verif.Sim.twoSided_violated",
    "Verif.Sim.energyRes_scaling"
   ],
   "note": "The two-sided form gives half the resolution of the one-sided form."
  },
  {
   "property": "C77",
   "status": "partial",
   "theorems": [
    "Verif.Nsmb.setup_defined_partial",
    "Verif.Nsmb.setup_single_violated",
    "Verif.Nsmb.no_background_violated",
    "Verif.Nsmb.nsmb_defined",
    "Verif.Nsmb.setup_and_fit_partial",
    "Verif.Nsmb.few_backgrounds_violated"
   ],
   "note": "Violated: one background makes the setup raise LinAlgError, none makes the fit raise. Defined for two or more."
  },
  {
   "property": "C78",
   "status": "partial",
   "theorems": [
    "Verif.Nsmb.con_zero_delay_violated",
    "Verif.Nsmb.con_reported"
   ],
   "note": "Violated for every trace of at least three bins: the slice [-1:2] passed to polyfit is empty and TypeError is raised. con_reported covers the calls that return."
  },
  {
   "property": "C79",
   "status": "partial",
   "theorems": [
    "Verif.Nsmb.interp_local_partial",
    "Verif.Nsmb.interp_edge_violated",
    "Verif.Nsmb.windows_interp",
    "Verif.Nsmb.con_interp_partial"
   ],
   "note": "Holds for every contiguous further window (windows_interp) and, for a search over all delays, for every best bin except the last one, which has no right neighbour (con_interp_partial; the first one raises, see C78). interp_edge_violated: violated when the search window ends on a falling edge of the curve over the whole trace (the parabola opens downwards)."
  },
  {
   "property": "C80",
   "status": "partial",
   "theorems": [
    "Verif.Nsmb.window_mutated_violated",
    "Verif.Nsmb.window_reuse_partial"
   ],
   "note": "Violated: negative indices in the caller's array are overwritten. A window without negative indices is unchanged, and reusing the modified window gives the same fit."
  },
  {
   "property": "C81",
   "status": "partial",
   "theorems": [
    "Verif.Nsmb.windows_partial",
    "Verif.Nsmb.window_single_violated"
   ],
   "note": "Holds whenever the call returns; a further window with a single bin raises IndexError."
  },
  {
   "property": "C82",
   "status": "proved",
   "theorems": [
    "Verif.NonLin.fit_reported"
   ],
   "note": "The optimiser is arbitrary."
  },
  {
   "property": "C83",
   "status": "partial",
   "theorems": [
    "Verif.NonLin.muon_transform",
    "Verif.NonLin.muon_reported",
    "Verif.NonLin.muon_defined_partial",
    "Verif.NonLin.muon_flat_violated",
    "Verif.NonLin.muon_dc_violated",
    "Verif.NonLin.muon_first_violated"
   ],
   "note": "Constant traces, psd[0]=0 and traces whose first sample is nearest to (max-min)/e raise ValueError."
  },
  {
   "property": "C84",
   "status": "partial",
   "theorems": [
    "Verif.NonLin.early_peak_violated",
    "Verif.NonLin.default_guess_partial"
   ],
   "note": "A maximum within the first seven samples raises ValueError (mean of an empty slice)."
  },
  {
   "property": "C85",
   "status": "partial",
   "theorems": [
    "Verif.NonLin.pulse2_height",
    "Verif.NonLin.twopole_scaled_partial",
    "Verif.NonLin.twopole_swapped_violated"
   ],
   "note": "For rise time above fall time the frequency model has height -A."
  },
  {
   "property": "C86",
   "status": "partial",
   "theorems": [
    "Verif.Template.makeTemplate_partial",
    "Verif.Template.makeTemplate_swapped_violated",
    "Verif.Template.makeTemplate_outside_violated"
   ],
   "note": "Proved for tau_r < tau_f, whole offsets and a pulse that overlaps the trace. With tau_f <= tau_r, or a pulse moved out of the trace, the code divides by zero and returns no template."
  },
  {
   "property": "C87",
   "status": "partial",
   "theorems": [
    "Verif.Template.align_rows",
    "Verif.Template.align_delayed",
    "Verif.Template.align_origin",
    "Verif.Template.align_arguments_violated",
    "Verif.Template.align_flat_violated",
    "Verif.Template.align_periodic_violated",
    "Verif.Template.align_empty",
    "Verif.Template.align_integer_violated"
   ],
   "note": "Shifts and masked rows are proved for any filter. Violated: cut_off_freq and fs are ignored, a trace without variation is moved out of the window, and windows on a periodic wave are aligned with a bias towards small shifts."
  },
  {
   "property": "C88",
   "status": "partial",
   "theorems": [
    "Verif.Trunc.iterstatU_mask",
    "Verif.Trunc.iterstatU_returns",
    "Verif.Trunc.iterstatU_stationary_partial",
    "Verif.Trunc.unbiased_start",
    "Verif.Trunc.unbiased_centred",
    "Verif.Trunc.stdEqn_units",
    "Verif.Trunc.unbiased_mean_violated",
    "Verif.Trunc.unbiased_witness_violated",
    "Verif.Trunc.unbiased_units_violated"
   ],
   "note": "Selection, termination and the equation for the standard deviation are proved. The equation for the mean lacks a factor std**2: its solutions are not stationary points of the likelihood unless centred, and they depend on the unit of the data (proved, with a concrete solution)."
  },
  {
   "property": "C89",
   "status": "partial",
   "theorems": [
    "Verif.Didv.scaledY_doc",
    "Verif.Didv.nll_chi2",
    "Verif.Didv.nll_defined",
    "Verif.Didv.penalty_independent",
    "Verif.Didv.penalty_free",
    "Verif.Didv.exact_data",
    "Verif.Didv.nll_indefinite_violated"
   ],
   "note": "The cost is proved to be chi-square plus penalty, the penalty for independent priors and for missing priors is computed, and definedness is proved for non-negative covariances. For a covariance with known off-diagonal entries only, the quadratic form is negative in some directions and the code returns nan (nll_indefinite_violated)."
  },
  {
   "property": "C90",
   "status": "proved",
   "theorems": [
    "Verif.Didv.dofitP_stores",
    "Verif.Didv.dofitP_results",
    "Verif.Didv.dofitP_invalid",
    "Verif.Didv.fitresultP_latest",
    "Verif.Didv.guess_start",
    "Verif.Didv.scaled_points"
   ],
   "note": "Minuit is a parameter of the model (any function)."
  },
  {
   "property": "C91",
   "status": "partial",
   "theorems": [
    "Verif.Cut.traces_unchanged_partial",
    "Verif.Cut.pileup_inplace_violated",
    "Verif.Cut.autocutsM_float",
    "Verif.Cut.integer_traces_violated",
    "Verif.Cut.integer_traces_partial",
    "Verif.Noise.genNoise_psd_partial",
    "Verif.Noise.genNoise_psd_violated"
   ],
   "note": "autocuts and pileupcut without removemeans keep the traces. pileupcut(removemeans=True) subtracts the means in place and raises for integer traces, so autocuts(is_didv=True) raises for them too; gen_noise replaces an infinite first PSD bin by zero in the caller's array."
  },
  {
   "property": "C92",
   "status": "partial",
   "theorems": [
    "Verif.Didv.bestOffset_lowest",
    "Verif.Didv.best_fit_on_data_partial",
    "Verif.Didv.fitsBin_result",
    "Verif.Didv.other_fit_rotated_violated",
    "Verif.Didv.bounds_partial",
    "Verif.Didv.bounds_collapse_violated",
    "Verif.Didv.abs_bounds_violated",
    "Verif.Didv.freqPlot_range",
    "Verif.Didv.drawn_results",
    "Verif.Didv.drawn_results_priors"
   ],
   "note": "Proved for the fit with the lowest cost and for the ranges. Refuted: the data are rotated by the time shift of the fit with the lowest cost only, so other fits which reproduce the data are drawn away from them; the bounds rotate the standard deviations and can coincide with the data."
  },
  {
   "property": "C93",
   "status": "partial",
   "theorems": [
    "Verif.Didv.processed_sampled",
    "Verif.Didv.fit_on_mean_trace",
    "Verif.Didv.zoom_edge_partial",
    "Verif.Didv.zoom_edge_violated"
   ],
   "note": "Fits are on the averaged trace for every delay of whole bins. The zoom is on the edge for a duty cycle of one half; refuted for other duty cycles."
  },
  {
   "property": "C94",
   "status": "partial",
   "theorems": [
    "Verif.Didv.flipped_iff",
    "Verif.Didv.flipped_linear_partial",
    "Verif.Didv.flipped_duty_violated"
   ],
   "note": "Proved for a duty cycle of one half, refuted for every other duty cycle."
  },
  {
   "property": "C95",
   "status": "partial",
   "theorems": [
    "Verif.Noise.csd_hermitian",
    "Verif.Noise.csd_parts_partial",
    "Verif.Noise.csd_imag_violated",
    "Verif.Noise.csd_real_violated",
    "Verif.Noise.csd_std_partial",
    "Verif.Noise.csd_std_violated"
   ],
   "note": "The stored parts agree with the matrix only in part; csd_imag_violated, csd_real_violated and csd_std_violated give the failures."
  },
  {
   "property": "C96",
   "status": "partial",
   "theorems": [
    "Verif.IvPlot.drawIv_all",
    "Verif.IvPlot.drawRv_drawPv_all",
    "Verif.IvPlot.draw_one",
    "Verif.IvPlot.fitLine_partial",
    "Verif.IvPlot.normal_on_line",
    "Verif.IvPlot.fitLine_padded_violated",
    "Verif.IvPlot.fitLine_sides_violated",
    "Verif.IvPlot.save_partial",
    "Verif.IvPlot.save_violated"
   ],
   "note": "The fit line is proved for unpadded biases of one sign and fails otherwise; saving from the methods plot_iv, plot_rv, plot_pv raises TypeError after writing the file."
  },
  {
   "property": "C97",
   "status": "partial",
   "theorems": [
    "Verif.NoisePlot.psd_overlay",
    "Verif.NoisePlot.psd_subplots",
    "Verif.NoisePlot.psd_saved",
    "Verif.NoisePlot.reim_parts",
    "Verif.NoisePlot.reim_save_violated",
    "Verif.NoisePlot.decorr_total",
    "Verif.NoisePlot.csd_digits_partial",
    "Verif.NoisePlot.csd_ten_violated",
    "Verif.NoisePlot.csd_file_violated",
    "Verif.NoisePlot.csd_request"
   ],
   "note": "False in the code: the method plot_reim_psd never saves, cross spectra of channels from ten on cannot be requested, and the file of a cross spectrum does not depend on the pair. The rest is proved."
  },
  {
   "property": "C98",
   "status": "partial",
   "theorems": [
    "Verif.NoisePlot.corr_lines",
    "Verif.NoisePlot.corr_range",
    "Verif.NoisePlot.smooth_partial",
    "Verif.NoisePlot.smooth_violated"
   ],
   "note": "False with the default smoothing: a coefficient of 25/21 is drawn for some traces. Without smoothing it is proved; with smoothing values on a cubic are kept."
  },
  {
   "property": "C99",
   "status": "partial",
   "theorems": [
    "Verif.NoisePlot.compare_violated",
    "Verif.NoisePlot.compare_partial"
   ],
   "note": "False in the code: every channel that exists raises AttributeError. Channels which no object has are skipped."
  },
  {
   "property": "C100",
   "status": "partial",
   "theorems": [
    "Verif.SimPlot.budget",
    "Verif.SimPlot.total_drawn",
    "Verif.SimPlot.data_on_total",
    "Verif.SimPlot.shown_or_saved",
    "Verif.SimPlot.freqs_violated",
    "Verif.SimPlot.identity_violated"
   ],
   "note": "False in the code: the types 'current' and 'power' overwrite the frequencies of the simulation object, and a type which is an equal but different string object gives no figure. The rest is proved."
  },
  {
   "property": "C101",
   "status": "partial",
   "theorems": [
    "Verif.NonLin.plot_defined",
    "Verif.NonLin.plot_after_fit",
    "Verif.NonLin.legend_all",
    "Verif.NonLin.freq_panel",
    "Verif.NonLin.time_panels",
    "Verif.NonLin.on_fit_partial",
    "Verif.NonLin.short_violated",
    "Verif.NonLin.tail_violated",
    "Verif.NonLin.zoom_partial",
    "Verif.NonLin.zoom_violated"
   ],
   "note": "Violated by the code: with a pulse in the first thousand samples the data are not drawn (traces up to 9000 samples) or drawn off the fit by the mean of the pulse tail; the zoom is empty when the trace starts less than five rise times before the pulse. The partial forms hold for later pulses."
  },
  {
   "property": "C102",
   "status": "partial",
   "theorems": [
    "Verif.Lowpass.lowpass_defined",
    "Verif.Lowpass.lowpass_linear",
    "Verif.Lowpass.lowpass_const",
    "Verif.Lowpass.range_partial",
    "Verif.Lowpass.range_violated",
    "Verif.Lowpass.response",
    "Verif.Lowpass.cutoff_violated"
   ],
   "note": "Violated by the code: the filter is applied forward and backward, so the amplitude at the cut-off is halved (6 dB); with a cut-off above a quarter of the sampling rate the filtered trace can leave the range of the trace. The response theorem gives the amplitude at every frequency."
  },
  {
   "property": "C103",
   "status": "partial",
   "theorems": [
    "Verif.Nsmb.plot_defined",
    "Verif.Nsmb.plot_nsmb",
    "Verif.Nsmb.plot_con",
    "Verif.Nsmb.plot_mb",
    "Verif.Nsmb.plot_curves",
    "Verif.Nsmb.plot_filtered",
    "Verif.Nsmb.plot_marks",
    "Verif.Nsmb.rate_violated",
    "Verif.Nsmb.file_unique",
    "Verif.Nsmb.zero_violated",
    "Verif.Nsmb.overwrite_violated"
   ],
   "note": "Violated by the code: at sampling rates up to 60 kHz asking for the plot makes the fit raise; the number 0 saves nothing; the constrained and the unconstrained fit write the same file for the same number. The other parts hold for all inputs."
  },
  {
   "property": "C104",
   "status": "partial",
   "theorems": [
    "Verif.Cut.itercov_selects",
    "Verif.Cut.itercov_units_partial",
    "Verif.Cut.itercov_units_violated"
   ],
   "note": "Proved: which events are kept, and independence of a common scale and of any shifts. False for a change of units of a single variable: the tolerance on the covariance adds the variances of all variables, so sixteen events keep eight instead of four when the second variable is given in units a thousand times smaller."
  },
  {
   "property": "C105",
   "status": "proved",
   "theorems": [
    "Verif.Cut.pileupcut_invariant",
    "Verif.Cut.pileupcut_removemeans",
    "Verif.Cut.chi2cut_invariant",
    "Verif.Cut.baselinecut_invariant",
    "Verif.Cut.slopecut_invariant",
    "Verif.Cut.autocuts_invariant",
    "Verif.Cut.unknown_algo_raises",
    "Verif.Cut.slopes_didv",
    "Verif.Cut.slopes_periodic",
    "Verif.Cut.slopes_plain",
    "Verif.Cut.baselinecut_feature"
   ],
   "note": "Slopes for trace lengths that are whole multiples of the windows; the unknown algorithm raises NameError because of a misspelt exception name."
  },
  {
   "property": "C106",
   "status": "partial",
   "theorems": [
    "Verif.Utils.offset_std",
    "Verif.Utils.offset_std_shift",
    "Verif.Utils.offset_std_periodic",
    "Verif.Utils.offset_std_mean_square",
    "Verif.Utils.offset_std_violated",
    "Verif.Utils.offset_std_single_violated"
   ],
   "note": "All but the last sentence proved. The last sentence is false: np.std divides by n, so the mean square is (n-1)/n of the variance, and a single trace gets zero."
  },
  {
   "property": "C107",
   "status": "partial",
   "theorems": [
    "Verif.NoiseSave.save_writes",
    "Verif.NoiseSave.save_distinct_partial",
    "Verif.NoiseSave.save_distinct_violated",
    "Verif.NoiseSave.save_default_violated"
   ],
   "note": "Names which differ in a space for an underscore share a file; objects without a name (the default) and empty paths raise. Names without spaces do not collide."
  },
  {
   "property": "C108",
   "status": "partial",
   "theorems": [
    "Verif.IbisPlot.drawIv_all",
    "Verif.IbisPlot.drawRv_drawPv_all",
    "Verif.IbisPlot.draw_one",
    "Verif.IbisPlot.normal_on_line_partial",
    "Verif.IbisPlot.normal_on_line_violated",
    "Verif.IbisPlot.save_partial",
    "Verif.IbisPlot.save_violated",
    "Verif.IbisPlot.draw_before_analyze"
   ],
   "note": "The fit line misses the data if an offset is given by the user; with lgcsave the three single plot methods raise TypeError after writing the file."
  },
  {
   "property": "C109",
   "status": "proved",
   "theorems": [
    "Verif.Ibis.iv_agrees"
   ],
   "note": "At zero TES current the power is zero in IBIS and not a number in IV; the theorem excludes these points."
  },
  {
   "property": "C110",
   "status": "proved",
   "theorems": [
    "Verif.OF.nodelay_mean",
    "Verif.OF.nodelay_variance",
    "Verif.OF.nodelay_best",
    "Verif.OF.chi2_nopulse_mean",
    "Verif.OF.nodelay_chi2_mean",
    "Verif.OF.chi2_lowfreq_mean",
    "Verif.OF.genNoise_stationary",
    "Verif.OF.normalDraws_stationary",
    "Verif.OF.nodelay_on_genNoise",
    "Verif.OF.resolutions_curvature"
   ],
   "note": "First and second moments only; no distribution is assumed except in nodelay_on_genNoise, which uses independent standard normal draws."
  },
  {
   "property": "C111",
   "status": "proved",
   "theorems": [
    "Verif.OF.chi2_nopulse_own_psd",
    "Verif.OF.chi2_lowfreq_own_psd",
    "Verif.OF.nodelay_own_psd"
   ],
   "note": "Exact over the reals; the PSD is assumed positive in every bin, as OptimumFilter divides by it."
  },
  {
   "property": "C112",
   "status": "proved",
   "theorems": [
    "Verif.Nsmb.nsmb_le_withdelay",
    "Verif.Nsmb.nsmb_null_backgrounds",
    "Verif.Nsmb.nsmb_constant_backgrounds"
   ],
   "note": "Stated whenever of_nsmb returns; it always raises with fewer than two backgrounds (C77)."
  },
  {
   "property": "C113",
   "status": "partial",
   "theorems": [
    "Verif.Didv.plot_all_or_none",
    "Verif.Didv.plot_files",
    "Verif.Didv.plot_path_partial",
    "Verif.Didv.plot_path_violated",
    "Verif.Didv.full_trace_range",
    "Verif.Didv.single_period_range",
    "Verif.Didv.re_im_range",
    "Verif.Didv.abs_phase_range",
    "Verif.Didv.flipped_drawn",
    "Verif.Didv.plane_drawn"
   ],
   "note": "the file is not in savepath unless this is empty or ends with a slash (proved for every other path)"
  },
  {
   "property": "C114",
   "status": "proved",
   "theorems": [
    "Verif.Didv.processed_averages",
    "Verif.Didv.processed_didv",
    "Verif.Didv.processed_units",
    "Verif.Didv.create_attributes"
   ],
   "note": "A trace is usable when its deconvolution has no nan. resample_data is a parameter of the constructor here; it is the subject of its own claim."
  },
  {
   "property": "C115",
   "status": "proved",
   "theorems": [
    "Verif.Didv.one_pole_determined",
    "Verif.Didv.two_pole_determined",
    "Verif.Didv.three_pole_determined",
    "Verif.Didv.tes_determined",
    "Verif.Didv.r0_undetermined",
    "Verif.Didv.sign_undetermined",
    "Verif.Didv.two_pole_shift_determined",
    "Verif.Didv.three_pole_shift_determined"
   ],
   "note": "Nonzero A, B, C and time constants. Two and three poles: the few-frequency statements are at equal time shift; the statements about eight and twelve harmonics are not."
  },
  {
   "property": "C116",
   "status": "proved",
   "theorems": [
    "Verif.Sim.resolution_agrees",
    "Verif.Sim.resolution_folded",
    "Verif.Sim.resolution_optimistic"
   ],
   "note": "Even trace lengths, where the trapezoidal rule over the non-negative frequencies is the sum over all bins. The template enters only through the power spectrum that energy_res_estimate assumes."
  },
  {
   "property": "C117",
   "status": "proved",
   "theorems": [
    "Verif.NonLin.fourpole_pulse",
    "Verif.NonLin.fourpole_params",
    "Verif.NonLin.threepole_pulse",
    "Verif.NonLin.threepole_params",
    "Verif.NonLin.twopole_params",
    "Verif.NonLin.twopole_exchange",
    "Verif.NonLin.onepole_params",
    "Verif.NonLin.muon_params",
    "Verif.NonLin.exact_trace",
    "Verif.NonLin.chi2_unique",
    "Verif.NonLin.fit_recovers",
    "Verif.NonLin.fourpole_shift",
    "Verif.NonLin.threepole_shift"
   ],
   "note": "Bins other than zero, as weighted by the fits. The start time is common for three and four poles; for two poles and one pole it is free and determined up to whole trace lengths. exact_trace shows that exact data exist for odd trace lengths."
  },
  {
   "property": "C118",
   "status": "proved",
   "theorems": [
    "Verif.OF.withdelay_exact",
    "Verif.OF.pileup_exact",
    "Verif.OF.stationary_exact",
    "Verif.OF.baseline_exact",
    "Verif.OF.nsmb_exact",
    "Verif.OF.withdelay_recovers",
    "Verif.OF.pileup_recovers",
    "Verif.OF.stationary_recovers",
    "Verif.OF.baseline_recovers",
    "Verif.OF.nsmb_recovers",
    "Verif.OF.mb_recovers",
    "Verif.OF.con_exact",
    "Verif.OF.con_recovers"
   ],
   "note": "The assumption on the template is stated as linear independence of two (stationary: three) shifted copies and shown for a concrete template. of_nsmb needs at least two backgrounds to be set up at all (C77)."
  },
  {
   "property": "C119",
   "status": "proved",
   "theorems": [
    "Verif.Nsmb.nsmb_mean",
    "Verif.Nsmb.nsmb_covariance",
    "Verif.Nsmb.nsmb_on_genNoise",
    "Verif.OF.stationary_noise"
   ],
   "note": "Fits at a given delay (a window of one bin), where the fit is linear in the trace. No distribution is assumed beyond first and second moments."
  },
  {
   "property": "C120",
   "status": "partial",
   "theorems": [
    "Verif.Utils.energy_each_trace_partial",
    "Verif.Utils.energy_three_axes_violated",
    "Verif.Utils.energy_one_channel_violated",
    "Verif.Utils.offset_each_channel",
    "Verif.Utils.offset_shape_violated"
   ],
   "note": "Proved for arrays of any shape, except that energy_absorbed with indbasepost is limited to two axes. Violated: np.hstack joins the two baseline windows along the second axis, so that arrays with three or more axes raise or give two energies per trace; calc_offset averages over the first axis too, so that its result never has the documented shape and a single trace raises."
  },
  {
   "property": "C121",
   "status": "partial",
   "theorems": [
    "Verif.Noise.psd_channel_two_sided",
    "Verif.Noise.psd_channel_folded_partial",
    "Verif.Noise.psd_channel_violated"
   ],
   "note": "The code doubles channels instead of frequency bins for arrays with three or more axes (psd_channel_violated); psd_channel_folded_partial says exactly which bins are right."
  },
  {
   "property": "C122",
   "status": "partial",
   "theorems": [
    "Verif.Sim.spectra_even_partial",
    "Verif.Sim.totals_even_partial",
    "Verif.Sim.squid_even_violated"
   ],
   "note": "The amplifier noise (squidpole/f)**squidn keeps the sign of the frequency: with the default exponent one it is not even and vanishes at minus the knee frequency."
  },
  {
   "property": "C123",
   "status": "proved",
   "theorems": [
    "Verif.Cut.removeoutliers_order",
    "Verif.Cut.iterstat_order",
    "Verif.Cut.itercov_order",
    "Verif.Cut.itercov_order_vectors",
    "Verif.Cut.stages_order",
    "Verif.Cut.autocuts_order"
   ],
   "note": "Symmetrizing the slopes draws random numbers and is excluded; that stage removes nothing anyway (C14)."
  },
  {
   "property": "C124",
   "status": "partial",
   "theorems": [
    "Verif.OF.nodelay_units",
    "Verif.OF.withdelay_units",
    "Verif.OF.pileup_units",
    "Verif.OF.baseline_units",
    "Verif.OF.chi2_units",
    "Verif.OF.resolutions_units",
    "Verif.OF.stationary_units_partial",
    "Verif.OF.stationary_units_violated"
   ],
   "note": "The fit of two pulses of which one is not delayed depends on the units if the delay zero is searched: there the code divides by twice the norm a quantity that is already divided by the norm (stationary_units_violated). Proved for searches that leave out zero delay and for changes of units that keep the variance of the amplitude; all other fits are covered without restriction."
  },
  {
   "property": "C125",
   "status": "proved",
   "theorems": [
    "Verif.Noise.uncorr_least",
    "Verif.Noise.uncorr_mixed",
    "Verif.Noise.corr_zero_iff",
    "Verif.Noise.uncorr_few"
   ],
   "note": "For a CSD that is missing or belongs to the current traces; singular matrices are recognised exactly, in floating point they may pass as nearly singular."
  },
  {
   "property": "C126",
   "status": "partial",
   "theorems": [
    "Verif.Noise.run_reorder",
    "Verif.Noise.run_rewire",
    "Verif.Noise.run_rescale_partial",
    "Verif.Noise.outcome_same",
    "Verif.Noise.run_offset",
    "Verif.Noise.shift_psd",
    "Verif.Noise.sign_results",
    "Verif.Noise.sign_violated",
    "Verif.Noise.calcPsd_same"
   ],
   "note": "With a negative factor the stored real and imaginary parts of the cross spectrum do not change sign, because fill_negatives replaces negative entries (sign_violated); all other results follow for factors of either sign (sign_results). Linear slopes and offsets over the reals."
  },
  {
   "property": "C127",
   "status": "proved",
   "theorems": [
    "Verif.Nsmb.nsmb_units",
    "Verif.Nsmb.mb_units",
    "Verif.Nsmb.con_units"
   ],
   "note": "Pseudo-inverses are exact; the parabola through fewer than three points is not modelled."
  },
  {
   "property": "C128",
   "status": "proved",
   "theorems": [
    "Verif.Nsmb.nsmb_span",
    "Verif.Nsmb.nsmb_signal",
    "Verif.Nsmb.nsmb_added",
    "Verif.Nsmb.mb_span"
   ],
   "note": "Exact pseudo-inverses; in floating point singular values near the cut-off of pinv are treated as zero. of_mb fails if exactly one background is left (C58), so its statement is for runs that return."
  },
  {
   "property": "C129",
   "status": "proved",
   "theorems": [
    "Verif.Iv.iv_units_error",
    "Verif.Iv.iv_units",
    "Verif.Iv.iv_rows",
    "Verif.Iv.iv_bias_order"
   ],
   "note": "Including the fit of the normal region (same points found), padded points and failures. In iv_bias_order the load resistance is the same at all bias points, as the constructor makes it."
  },
  {
   "property": "C130",
   "status": "partial",
   "theorems": [
    "Verif.Ibis.ibis_units_error",
    "Verif.Ibis.ibis_units_partial",
    "Verif.Ibis.ibis_rows",
    "Verif.Ibis.bias_zero_violated",
    "Verif.Ibis.readout_zero_violated",
    "Verif.Ibis.ibis_bias_order"
   ],
   "note": "All values and the errors of the fitted resistances are physical; all errors are if the zero of the bias current (and without the superconducting fit also of the readout) is kept. Otherwise the errors of the offsets change: the covariance of slope and intercept is left out (bias_zero_violated, readout_zero_violated)."
  },
  {
   "property": "C131",
   "status": "partial",
   "theorems": [
    "Verif.Didv.didv_units",
    "Verif.Didv.convert_units",
    "Verif.Didv.fit_units",
    "Verif.Didv.fitResult_units",
    "Verif.Didv.falltimes_units",
    "Verif.Didv.response_units",
    "Verif.Didv.process_units",
    "Verif.Didv.priors_units_partial",
    "Verif.Didv.correlated_priors_violated"
   ],
   "note": "The cost with priors is unit-free for covariances in which only parameters without a prior lack uncertainty; correlated_priors_violated gives a fully correlated prior for which it is not. The starting guesses of the fit contain constants in seconds and henries and are not part of the claim."
  },
  {
   "property": "C132",
   "status": "partial",
   "theorems": [
    "Verif.NonLin.model_in_units",
    "Verif.NonLin.residuals_units_partial",
    "Verif.NonLin.fit_units_partial",
    "Verif.NonLin.chi2_units_violated",
    "Verif.NonLin.offset_partial",
    "Verif.NonLin.residuals_later",
    "Verif.NonLin.residuals_flip",
    "Verif.NonLin.default_guess_units_partial",
    "Verif.NonLin.default_guess_time_violated",
    "Verif.NonLin.muon_units"
   ],
   "note": "Partial because the code violates it: the zero-frequency bin of OFnonlin has the fixed noise 1e40 in the user's units (chi2_units_violated gives every case; residuals_units_partial and fit_units_partial give the exact difference), and the default time constants are fixed numbers (default_guess_time_violated). Optimisers are arbitrary functions which find the same solution in both units."
  },
  {
   "property": "C133",
   "status": "partial",
   "theorems": [
    "Verif.Didv.two_pole_recovered",
    "Verif.Didv.three_pole_recovered",
    "Verif.Didv.one_pole_recovered",
    "Verif.Didv.dofit_two_recovered_partial",
    "Verif.Didv.dofit_three_recovered_partial",
    "Verif.Didv.dofit_one_recovered_partial",
    "Verif.Didv.noise_free_traces_violated"
   ],
   "note": "Proved for averages given with error bars (didvinitfromdata). False for traces: repeated traces without noise have no spread, so the errors are zero and dofit raises, however many traces there are. Finds (DidvShiftSpec) is the assumption on scipy's least_squares: it returns a point within its bounds, and a best one if there is one."
  },
  {
   "property": "C134",
   "status": "proved",
   "theorems": [
    "Verif.NonLin.twopole_fit_recovers",
    "Verif.NonLin.onepole_fit_recovers",
    "Verif.NonLin.threepole_fit_recovers",
    "Verif.NonLin.fourpole_fit_recovers",
    "Verif.NonLin.muon_fit_recovers",
    "Verif.NonLin.even_not_exact"
   ],
   "note": "The optimiser is any function which returns a point of smallest sum of squares within its bounds whenever there is one (Finds in NonLinRecSpec). The data are assumed equal to the model spectrum in every bin."
  },
  {
   "property": "C135",
   "status": "proved",
   "theorems": [
    "Verif.OF.searching_split",
    "Verif.OF.stationary_split",
    "Verif.OF.searching_min",
    "Verif.OF.searching_mono",
    "Verif.OF.searching_same",
    "Verif.OF.searching_direction"
   ],
   "note": "With interpolation only the inside/outside statement is claimed: interpolated chi2 values of different bins are not ordered like those of the bins."
  },
  {
   "property": "C136",
   "status": "proved",
   "theorems": [
    "Verif.Cut.cut_features",
    "Verif.Cut.pulse_unique",
    "Verif.Cut.cut_pulses"
   ],
   "note": "Traces of one sample are not covered: the pulse is then constant and invisible to the filter."
  },
  {
   "property": "C137",
   "status": "partial",
   "theorems": [
    "Verif.IntArr.shift_partial",
    "Verif.IntArr.shift_fill_violated",
    "Verif.IntArr.shift_violated",
    "Verif.IntArr.fillNegatives_partial",
    "Verif.IntArr.fillNegatives_violated",
    "Verif.IntArr.analyze_partial",
    "Verif.IntArr.analyze_zero_violated",
    "Verif.IntArr.analyze_violated",
    "Verif.IntArr.analyze_raises_violated"
   ],
   "note": "Proved: shifts by whole bins with a whole fill value agree; fill_negatives of integers is the floats' result truncated, still positive, and equal where that is whole; IBIS.analyze agrees in all fitted quantities and currents. Violated: other shifts and fill values, interpolated values which are not whole, resistances and powers at the bias points (a resistance below one becomes 0; a vanishing TES current raises). align_traces and the cuts of integer traces are in C87 and C91."
  },
  {
   "property": "C138",
   "status": "proved",
   "theorems": [
    "Verif.Device.one_pole_device",
    "Verif.Device.two_pole_device",
    "Verif.Device.three_pole_device",
    "Verif.Device.device_reloaded",
    "Verif.Device.superconductor_reloaded"
   ],
   "note": "Finds (DidvShiftSpec) is the assumption on scipy's least_squares. Averages given with error bars; traces without noise cannot be fitted (C133). Noise types are the interned strings (C55)."
  },
  {
   "property": "C139",
   "status": "proved",
   "theorems": [
    "Verif.Device.priors_two_pole",
    "Verif.Device.priors_three_pole",
    "Verif.Device.priors_one_pole",
    "Verif.Device.priors_device_reloaded",
    "Verif.Device.r0_prior_needed",
    "Verif.Device.scale_prior_needed"
   ],
   "note": "The minimiser is an arbitrary function which returns a best point within the limits whenever there is one; that migrad does so is not claimed. The fit is assumed to finish (the guess, which comes from the fit without priors, may raise)."
  },
  {
   "property": "C140",
   "status": "proved",
   "theorems": [
    "Verif.Device.cost_is_distance",
    "Verif.Device.fit_near_device",
    "Verif.Device.distance_laws"
   ],
   "note": "The optimiser (scipy least_squares) is a parameter; the theorems assume of it only that the reported cost is that of the returned point. distance_laws shows that the distance is symmetric, obeys the triangle inequality and bounds the deviation in each bin. DeviceNoiseEx.lean has a fit with a nonzero deviation meeting the hypotheses."
  },
  {
   "property": "C141",
   "status": "proved",
   "theorems": [
    "Verif.OF.false_triggers",
    "Verif.OF.missed_pulses",
    "Verif.OF.search_means",
    "Verif.OF.false_triggers_normal",
    "Verif.OF.missed_pulses_normal",
    "Verif.OF.delays_card",
    "Verif.OF.search_finishes"
   ],
   "note": "The fits are given by hypotheses saying what they return for every noise trace; search_finishes shows that they always return. Probabilities are outer measures of sets of noise traces; the mean values come with a proof that the integrals exist."
  },
  {
   "property": "C142",
   "status": "proved",
   "theorems": [
    "Verif.OF.psd_consistent",
    "Verif.OF.genNoise_consistent",
    "Verif.OF.filter_limit",
    "Verif.OF.search_limit",
    "Verif.OF.measured_filter_consistent",
    "Verif.OF.draws_run"
   ],
   "note": "Strong law of large numbers for pairwise independent traces. draws_run shows that the normal draws of gen_noise, trace after trace, are such a run."
  },
  {
   "property": "C143",
   "status": "proved",
   "theorems": [
    "Verif.OF.chi2_nopulse_spread",
    "Verif.OF.nodelay_chi2_spread",
    "Verif.OF.chi2_cut",
    "Verif.OF.chi2_lowfreq_spread",
    "Verif.OF.psd_spread",
    "Verif.OF.genNoise_psd_spread"
   ],
   "note": "Fourth moments of normal draws come from the moment generating function; the chi-squares are sums of powers of the draws in the bins used."
  },
  {
   "property": "C144",
   "status": "proved",
   "theorems": [
    "Verif.OF.chi2_nopulse_law",
    "Verif.OF.nodelay_law",
    "Verif.OF.chi2_cut_unbiased",
    "Verif.OF.chi2_lowfreq_law",
    "Verif.OF.pileup_law",
    "Verif.Nsmb.nsmb_law"
   ],
   "note": "chiSquared (OFLawSpec) is the law of the sum of squares of independent standard normals. gen_noise is fed independent standard normal draws."
  },
  {
   "property": "C145",
   "status": "proved",
   "theorems": [
    "Verif.Device.average_consistent",
    "Verif.Device.fit_consistent",
    "Verif.Device.device_response"
   ],
   "note": "That no trace or driven bin is thrown away (exact zeros, deconvolved values above 1e16) is a hypothesis with probability one; the optimiser is a parameter and that it got as low as the true response is a hypothesis on the fit result. DidvLimitEx.lean gives a nine-sample bench with random kicks meeting all of it."
  },
  {
   "property": "C146",
   "status": "proved",
   "theorems": [
    "Verif.Device.two_pole_consistent",
    "Verif.Device.three_pole_consistent",
    "Verif.Device.one_pole_consistent"
   ],
   "note": "The optimiser is a parameter: that it returned a point within its bounds with an honest cost (Sound) and got as low as the true response are hypotheses, since least_squares is not modelled. The time offset is determined only up to whole periods of the drive."
  },
  {
   "property": "C147",
   "status": "proved",
   "theorems": [
    "Verif.NonLin.twopole_fit_stable",
    "Verif.NonLin.twopole_fit_consistent",
    "Verif.NonLin.onepole_fit_stable",
    "Verif.NonLin.onepole_fit_consistent",
    "Verif.NonLin.threepole_fit_stable",
    "Verif.NonLin.threepole_fit_consistent",
    "Verif.NonLin.fourpole_fit_stable",
    "Verif.NonLin.fourpole_fit_consistent",
    "Verif.NonLin.muon_fit_stable",
    "Verif.NonLin.muon_fit_consistent",
    "Verif.NonLin.best_finding"
   ],
   "note": "The pulse's data are assumed equal to the model spectrum in every bin, as in C134. The optimiser is arbitrary: what it returns is only required to lie in the bounds and to have a chi2 not above that of the truth; best_finding shows that a best point has these properties."
  },
  {
   "property": "C148",
   "status": "partial",
   "theorems": [
    "Verif.Iv.iv_offset",
    "Verif.Iv.iv_resistance",
    "Verif.Iv.iv_offset_best",
    "Verif.Iv.iv_current_partial",
    "Verif.Iv.iv_current_violated",
    "Verif.Iv.iv_continuous",
    "Verif.Iv.iv_consistent"
   ],
   "note": "Partial because the code violates it: at the normal points themselves the errors of current and offset are correlated, which ites_err ignores (iv_current_violated: the square of the stated error is five times the variance at one normal point and less than it at another). iv_current_partial proves the claim at all other bias points; the rest is proved in full."
  },
  {
   "property": "C149",
   "status": "proved",
   "theorems": [
    "Verif.Ibis.ibis_continuous",
    "Verif.Ibis.ibis_consistent",
    "Verif.Ibis.ibis_lines_unbiased"
   ],
   "note": "Repetitions are pairwise independent and identically distributed with an integrable law of mean zero. FollowsCircuit (specification of C51) says which circuit the true readings follow. The slopes and intercepts are averaged over all draws in which analyze succeeds with probability one."
  },
  {
   "property": "C150",
   "status": "proved",
   "theorems": [
    "Verif.Noise.noise_psd",
    "Verif.Noise.noise_csd",
    "Verif.Noise.noise_corrcoeff",
    "Verif.Noise.noise_uncorr",
    "Verif.Noise.stationary_psd",
    "Verif.Noise.stationary_csd"
   ],
   "note": "Strong law of large numbers for pairwise independent recordings. Stationary means that second moments depend on the time difference modulo the length, as for gen_noise. scipy.signal.csd is modelled for one Hann-windowed segment of the length of the trace."
  },
  {
   "property": "C151",
   "status": "proved",
   "theorems": [
    "Verif.Iv.iv_fit_errors",
    "Verif.Iv.iv_fit_errors_more",
    "Verif.Iv.iv_point_errors"
   ],
   "note": "First-order (delta-method) correctness of the stated errors with exact formulas for the omitted voltage errors of the normal points. For zero current there is no resistance and no claim."
  },
  {
   "property": "C152",
   "status": "proved",
   "theorems": [
    "Verif.NonLin.twopole_fit_errors",
    "Verif.NonLin.onepole_fit_errors",
    "Verif.NonLin.threepole_fit_errors",
    "Verif.NonLin.fourpole_fit_errors",
    "Verif.NonLin.muon_fit_errors"
   ],
   "note": "The optimiser is assumed to return a best point and the exact Jacobian there (scipy returns a finite-difference Jacobian at an approximate minimum). Odd numbers of samples only: for even ones the model of the code is not the transform of a real trace (see C134)."
  },
  {
   "property": "C153",
   "status": "partial",
   "theorems": [
    "Verif.Device.one_pole_errors_partial",
    "Verif.Device.two_pole_errors_partial",
    "Verif.Device.three_pole_errors_partial",
    "Verif.Device.reported_errors_violated"
   ],
   "note": "The code violates the claim: the fit counts every measurement twice, at its frequency and at the opposite one, so the true covariances are exactly twice those reported. The partial theorems prove all of the claim but that factor; the optimiser is assumed to end at a local minimum and to use exact derivatives there."
  },
  {
   "property": "C154",
   "status": "partial",
   "theorems": [
    "Verif.Device.opposite_bins",
    "Verif.Device.posterior_cost_partial",
    "Verif.Device.posterior_cost_violated"
   ],
   "note": "Proved for all inputs: the averages at opposite frequencies (with drive, in traces which do not exceed 1e16 times the drive) are conjugates with equal error bars, and the cost is the negative logarithm of the posterior plus half the distances of the repeated bins. The claim itself fails: the data count twice against the priors, and a witness from two traces shows the fit preferring less probable parameters (posterior_cost_violated)."
  },
  {
   "property": "C155",
   "status": "partial",
   "theorems": [
    "Verif.Device.one_pole_prior_errors_partial",
    "Verif.Device.two_pole_prior_errors_partial",
    "Verif.Device.three_pole_prior_errors_partial",
    "Verif.Device.prior_errors_violated"
   ],
   "note": "Mean zero, the reported covariance C = (G + P)^-1 and the true one C (2 G + P) C are proved for one, two and three poles; that both agree is false, since the bins at negative frequencies repeat those at positive ones while the priors enter once."
  },
  {
   "property": "C156",
   "status": "proved",
   "theorems": [
    "Verif.OF.wrong_delay",
    "Verif.OF.right_delay",
    "Verif.OF.right_delay_limit",
    "Verif.OF.wrong_delay_normal",
    "Verif.OF.right_delay_normal"
   ],
   "note": "The bound for all delays together is stated with a lower bound of the chi-squares times the number of other delays; wrong_delay gives the single terms. The fits are given by hypotheses saying what they return for every noise trace; search_finishes (C141) shows that they always return."
  },
  {
   "property": "C157",
   "status": "proved",
   "theorems": [
    "Verif.OF.other_psd_mean",
    "Verif.OF.other_psd_resolution",
    "Verif.OF.other_psd_best",
    "Verif.OF.other_psd_loss",
    "Verif.OF.other_psd_chi2"
   ],
   "note": "First and second moments only. The PSD of the noise is finite in every bin; the PSD given to the filter may be infinite in bins which the user excludes, except in other_psd_loss."
  },
  {
   "property": "C158",
   "status": "proved",
   "theorems": [
    "Verif.OF.nodelay_robust",
    "Verif.OF.nodelay_shape",
    "Verif.OF.withdelay_robust",
    "Verif.OF.withdelay_exact_delay",
    "Verif.OF.pileup_robust",
    "Verif.OF.stationary_robust",
    "Verif.OF.baseline_robust",
    "Verif.OF.nsmb_robust"
   ],
   "note": "The first pulse given to the pile-up fit is on a sample (otherwise C36 fails), and the second pulse of the stationary fit is not at delay zero (otherwise C37 fails). That the fits return is C118, C141, C38 and C57."
  },
  {
   "property": "C159",
   "status": "proved",
   "theorems": [
    "Verif.OF.pileup_leak",
    "Verif.OF.pileup_known",
    "Verif.OF.two_steps",
    "Verif.OF.two_steps_mean"
   ],
   "note": "Fits at a given delay (a window of one bin), where the fit is linear in the trace; first and second moments only."
  },
  {
   "property": "C160",
   "status": "proved",
   "theorems": [
    "Verif.Utils.energy_noise_given",
    "Verif.Utils.energy_noise_measured",
    "Verif.Utils.energy_noise_bounds",
    "Verif.Utils.energy_noise_white"
   ],
   "note": "The variant with time stamps agrees with the one with fs for regular time stamps (energy_fs_time, C07)."
  },
  {
   "property": "C161",
   "status": "proved",
   "theorems": [
    "Verif.Cut.iterstat_few",
    "Verif.Cut.iterstat_outlier",
    "Verif.Cut.iterstat_outlier_far",
    "Verif.Cut.iterstat_equal_points",
    "Verif.Cut.iterstat_cluster"
   ],
   "note": "The threshold is exact for cuts of at least 1: at most cut**2 + 1 points are never cut, and one more can be. Real arithmetic; with equal points and an outlier the code's floating-point standard deviation of the equal points can differ from zero by rounding."
  },
  {
   "property": "C162",
   "status": "proved",
   "theorems": [
    "Verif.SlopeStat.slope_mean",
    "Verif.SlopeStat.slope_variance",
    "Verif.SlopeStat.slope_variance_time",
    "Verif.SlopeStat.slope_best",
    "Verif.SlopeStat.slope_likelihood",
    "Verif.SlopeStat.slope_removed_scatter"
   ],
   "note": "Real arithmetic. slope_best compares estimators that are fixed weighted sums of the data."
  },
  {
   "property": "C163",
   "status": "proved",
   "theorems": [
    "Verif.Cut.itercov_never_cuts",
    "Verif.Cut.itercov_chi2_total"
   ],
   "note": "Real arithmetic: a covariance matrix is singular exactly when its determinant is zero."
  },
  {
   "property": "C164",
   "status": "proved",
   "theorems": [
    "Verif.Utils.shift_smooth",
    "Verif.Utils.shift_lipschitz",
    "Verif.Utils.shift_range",
    "Verif.Utils.shift_white",
    "Verif.Utils.shift_twice"
   ],
   "note": "scipy.ndimage.shift(order=1, mode='constant') is modelled as linear interpolation (DESIGN.md). Arrays of floats."
  },
  {
   "property": "C165",
   "status": "partial",
   "theorems": [
    "Verif.Cut.removeoutliers_high_partial",
    "Verif.Cut.removeoutliers_few",
    "Verif.Cut.removeoutliers_all_or_ends",
    "Verif.Cut.removeoutliers_one_side",
    "Verif.Cut.removeoutliers_low_violated",
    "Verif.Cut.removeoutliers_smallest_violated"
   ],
   "note": "Proved for outliers above the others. Violated below: the loop is entered for positive skewness only, so of a data set and its mirror image one is always left whole, and a single point far below is kept. Also violated: together with the outlier the smallest points are always removed, because the cut is open at the nearer of the two ends."
  },
  {
   "property": "C166",
   "status": "proved",
   "theorems": [
    "Verif.Template.align_disturbed",
    "Verif.Template.align_probability",
    "Verif.Template.align_units",
    "Verif.Template.lowpass_units"
   ],
   "note": "Real arithmetic: the FFT convolution is taken to be exact. That a periodic drive can be aligned a period off is C87 (align_periodic_violated): there the fall of the overlap is too small for the samples moved out of the window."
  },
  {
   "property": "C167",
   "status": "proved",
   "theorems": [
    "Verif.Noise.genNoise_any",
    "Verif.Noise.genNoise_any_mean",
    "Verif.Noise.genNoise_symmetric_only"
   ],
   "note": "The documentation asks for a two-sided PSD but nothing checks it. For symmetric PSDs see C64."
  },
  {
   "property": "C168",
   "status": "proved",
   "theorems": [
    "Verif.OF.energyResolution_mono",
    "Verif.OF.timeResolution_mono",
    "Verif.OF.resolution_sources",
    "Verif.OF.resolution_same_shape"
   ],
   "note": "For templates which are not normalised by their integral (integralnorm=False). An example has two sources with squares of 3/2 each and 4 together."
  },
  {
   "property": "C169",
   "status": "proved",
   "theorems": [
    "Verif.Nsmb.more_backgrounds",
    "Verif.Nsmb.backgrounds_cost"
   ],
   "note": "That the matrix of of_nsmb_getiP is the covariance matrix of the amplitudes is C119. of_nsmb_setup fails with exactly one background (C77)."
  },
  {
   "property": "C170",
   "status": "proved",
   "theorems": [
    "Verif.Noise.smooth_below",
    "Verif.Noise.smooth_defined",
    "Verif.Noise.smooth_optimistic",
    "Verif.Noise.smooth_time",
    "Verif.Noise.smooth_twice"
   ],
   "note": "The true spread is the square root of the mean squared deviation of the amplitude from the pulse height. Positivity of the smoothed spectrum is assumed: extrapolation beyond the last running minimum can make it negative (C03)."
  }
 ]
}