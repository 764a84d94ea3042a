{
 "claims": [
  {
   "property": "C01",
   "status": "proved",
   "theorems": [
    "Pxmcmc.C01_soft_is_prox_vector",
    "Pxmcmc.C01_soft_is_prox_scalar"
   ],
   "note": "Vector and scalar thresholds, real or complex, unique minimiser."
  },
  {
   "property": "C02",
   "status": "proved",
   "theorems": [
    "Pxmcmc.C02_soft_one_threshold",
    "Pxmcmc.C02_soft_one_entry",
    "Pxmcmc.C02_soft_pointwise",
    "Pxmcmc.C02_soft_scalar_eq_vector",
    "Pxmcmc.C02_soft_zero",
    "Pxmcmc.C02_soft_length_mismatch"
   ],
   "note": "Pointwise description, T=0 identity, arrays of length one, non-broadcastable lengths raise ValueError."
  },
  {
   "property": "C03",
   "status": "proved",
   "theorems": [
    "Pxmcmc.C03_soft_firmly_nonexpansive"
   ],
   "note": "Firm non-expansiveness and non-expansiveness for per-entry thresholds."
  },
  {
   "property": "C04",
   "status": "proved",
   "theorems": [
    "Pxmcmc.C04_hard_keeps_largest",
    "Pxmcmc.C04_hard_out_of_range"
   ],
   "note": "Kept set is an upper set of the moduli of size >= k, exactly k for distinct moduli; IndexError out of range."
  },
  {
   "property": "C05",
   "status": "partial",
   "theorems": [
    "Pxmcmc.C05_hard_fraction_refuted",
    "Pxmcmc.C05_hard_zero_count_keeps_all",
    "Pxmcmc.C05_hard_all_equal_keeps_all",
    "Pxmcmc.C05_hard_fraction_partial"
   ],
   "note": "False in the code: int(T*n)=0 keeps everything (X_srt[-0] is the minimum) and ties keep more than requested; refuted with a witness, both failure modes characterised, and proved for distinct moduli with int(T*n)>=1."
  },
  {
   "property": "C06",
   "status": "partial",
   "theorems": [
    "Pxmcmc.C06_soft_preserves_caller",
    "Pxmcmc.C06_hard_preserves_caller_refuted",
    "Pxmcmc.C06_hard_frame_partial"
   ],
   "note": "soft: proved. hard: refuted (writes its result into the caller array); frame property proved for the rest of the heap."
  },
  {
   "property": "C07",
   "status": "proved",
   "theorems": [
    "Pxmcmc.C07_synthesis_prox",
    "Pxmcmc.C07_setting_checked"
   ],
   "note": "Synthesis proxf is the unique prox point of T*prior; unknown setting strings fail the assertion."
  },
  {
   "property": "C08",
   "status": "proved",
   "theorems": [
    "Pxmcmc.C08_analysis_prox",
    "Pxmcmc.C08_identity_handles"
   ],
   "note": "Parseval transform pair (fwd adjoint to adj, adj(fwd(c))=c) and scalar T>=0; identity handles give soft."
  },
  {
   "property": "C09",
   "status": "partial",
   "theorems": [
    "Pxmcmc.C09_analysis_prior_refuted",
    "Pxmcmc.C09_analysis_prior_partial"
   ],
   "note": "False in the code: prior stays sum|X| in the analysis setting; refuted with a plane rotation, proved for Parseval transforms preserving the l1 norm."
  },
  {
   "property": "C10",
   "status": "proved",
   "theorems": [
    "Pxmcmc.C10_wavelet_prox",
    "Pxmcmc.C10_analysis_not_implemented"
   ],
   "note": "For every list of bandlimits >=1 and scalar T>=0; uses positivity of the quadrature weights (C25)."
  },
  {
   "property": "C11",
   "status": "partial",
   "theorems": [
    "Pxmcmc.C11_power_prox_iff",
    "Pxmcmc.C11_power_prox_partial",
    "Pxmcmc.C11_power_prox_refuted",
    "Pxmcmc.C11_single_bandlimit_raises"
   ],
   "note": "False in the code: prior uses the squared power weights, the threshold uses base weight times power weight; exact iff criterion, refutation with a concrete tiling for every T>0, and the norm whose prox is computed."
  },
  {
   "property": "C12",
   "status": "partial",
   "theorems": [
    "Pxmcmc.C12_float_threshold_kept",
    "Pxmcmc.C12_array_threshold_refuted",
    "Pxmcmc.C12_array_threshold_partial"
   ],
   "note": "Float thresholds: proved. Array thresholds: refuted; the in-place effect is characterised (second prior sees T*w*w)."
  },
  {
   "property": "C13",
   "status": "proved",
   "theorems": [
    "Pxmcmc.C13_expand_flatten",
    "Pxmcmc.C13_flatten_expand",
    "Pxmcmc.C13_scal_length"
   ],
   "note": "Both directions, all integers nscalcoefs."
  },
  {
   "property": "C14",
   "status": "proved",
   "theorems": [
    "Pxmcmc.C14_expand_flatten",
    "Pxmcmc.C14_expand_flatten_flat",
    "Pxmcmc.C14_flatten_expand"
   ],
   "note": "Both directions and the flattened variant."
  },
  {
   "property": "C15",
   "status": "proved",
   "theorems": [
    "Pxmcmc.C15_argument_check",
    "Pxmcmc.C15_too_short",
    "Pxmcmc.C15_truncates",
    "Pxmcmc.C15_truncates_flat"
   ],
   "note": "Argument check, too short vectors, truncation."
  },
  {
   "property": "C16",
   "status": "proved",
   "theorems": [
    "Pxmcmc.C16_chebyshev1_eval",
    "Pxmcmc.C16_chebyshev1_neg",
    "Pxmcmc.C16_chebyshev1_cos"
   ],
   "note": "Against Mathlib Chebyshev polynomials over any commutative ring, cosine identity, negative orders."
  },
  {
   "property": "C17",
   "status": "proved",
   "theorems": [
    "Pxmcmc.C17_chebyshev2_eval",
    "Pxmcmc.C17_cheb1der_is_derivative",
    "Pxmcmc.C17_negative_orders",
    "Pxmcmc.C17_chebyshev2_sin"
   ],
   "note": "Against Mathlib polynomials; derivative as HasDerivAt of the modelled chebyshev1."
  },
  {
   "property": "C18",
   "status": "proved",
   "theorems": [
    "Pxmcmc.C18_total",
    "Pxmcmc.C18_zero",
    "Pxmcmc.C18_negative"
   ],
   "note": "Constructor total for s>=1, ZeroDivisionError at 0, ValueError below; includes positivity of omega0/omega1 and well-definedness of all coefficient divisions."
  },
  {
   "property": "C19",
   "status": "proved",
   "theorems": [
    "Pxmcmc.C19_one_stage"
   ],
   "note": "One stage reduces to the explicit step."
  },
  {
   "property": "C20",
   "status": "partial",
   "theorems": [
    "Pxmcmc.C20_recursion_refuted",
    "Pxmcmc.C20_two_stage_drift",
    "Pxmcmc.C20_recursion_partial",
    "Pxmcmc.C20_every_count_refuted"
   ],
   "note": "False in the code for every later stage formula: T_j is evaluated at omega_1 instead of omega_0, ks[j] is 1-nus[0]=1, and ks[j] is added as a constant instead of multiplying K_{j-2} (which is subtracted with coefficient 1). Refuted for every s>=2 (C20_every_count_refuted: with zero gradient and noise at most one state is mapped as published); omega_0, omega_1 and the first stage proved right for every s."
  },
  {
   "property": "C21",
   "status": "partial",
   "theorems": [
    "Pxmcmc.C21_cost_partial",
    "Pxmcmc.C21_cost_refuted"
   ],
   "note": "False in the code: exponential cost; number of gradient calls equals s iff s<=1 and is at least 2^s-1."
  },
  {
   "property": "C22",
   "status": "proved",
   "theorems": [
    "Pxmcmc.C22_pixel_areas"
   ],
   "note": "Shape, positivity and exact total area for every L>=1, r>0."
  },
  {
   "property": "C23",
   "status": "proved",
   "theorems": [
    "Pxmcmc.C23_additive",
    "Pxmcmc.C23_nonneg",
    "Pxmcmc.C23_cap"
   ],
   "note": "Additivity, sign and cap identity for all angles."
  },
  {
   "property": "C24",
   "status": "proved",
   "theorems": [
    "Pxmcmc.C24_exact",
    "Pxmcmc.C24_exact_harmonics",
    "Pxmcmc.C24_wrong_size"
   ],
   "note": "Exact on every function bandlimited at L, in particular spherical-harmonic sums; wrong array length raises."
  },
  {
   "property": "C25",
   "status": "proved",
   "theorems": [
    "Pxmcmc.C25_weights"
   ],
   "note": "Length, strict positivity, total 4*pi for every L>=1."
  },
  {
   "property": "C26",
   "status": "proved",
   "theorems": [
    "Pxmcmc.C26_mask",
    "Pxmcmc.C26_mask_mono_array",
    "Pxmcmc.C26_mask_none"
   ],
   "note": "For every galactic-latitude function; monotone in size; size<=0 masks nothing."
  },
  {
   "property": "C27",
   "status": "proved",
   "theorems": [
    "Pxmcmc.C27_pair",
    "Pxmcmc.C27_forward",
    "Pxmcmc.C27_adjoint",
    "Pxmcmc.C27_square",
    "Pxmcmc.C27_wrong_length"
   ],
   "note": "Rectangular identity, adjoint, square case and wrong lengths."
  },
  {
   "property": "C28",
   "status": "proved",
   "theorems": [
    "Pxmcmc.C28_adjoint",
    "Pxmcmc.C28_wrong_length"
   ],
   "note": "Any real or complex matrix."
  },
  {
   "property": "C29",
   "status": "proved",
   "theorems": [
    "Pxmcmc.C29_kernel",
    "Pxmcmc.C29_rejects"
   ],
   "note": "Every bandlimit; index of (l,m), first four entries, rejection of L<1."
  },
  {
   "property": "C30",
   "status": "proved",
   "theorems": [
    "Pxmcmc.C30_harmonic_operator"
   ],
   "note": "Self-adjointness, both inverse laws with the first four coefficients zeroed, norm bound; real or complex."
  },
  {
   "property": "C31",
   "status": "proved",
   "theorems": [
    "Pxmcmc.C31_mask",
    "Pxmcmc.C31_rejects",
    "Pxmcmc.C31_single_broadcast"
   ],
   "note": "Every mask of the right shape; rejection of wrong counts and the single-value broadcast exception."
  },
  {
   "property": "C32",
   "status": "proved",
   "theorems": [
    "Pxmcmc.C32_adjoint"
   ],
   "note": "Every object the constructor can build; pyssht adjointness and sizes are hypotheses."
  },
  {
   "property": "C33",
   "status": "partial",
   "theorems": [
    "Pxmcmc.C33_error_kind_refuted",
    "Pxmcmc.C33_wrong_shape_raises_partial"
   ],
   "note": "The documented ValueError is raised only for shapes that are a strict prefix of (L,2L-1), otherwise IndexError: error kind refuted, \"always raises\" proved."
  },
  {
   "property": "C34",
   "status": "partial",
   "theorems": [
    "Pxmcmc.C34_nan_rejected_refuted",
    "Pxmcmc.C34_nan_passes_partial"
   ],
   "note": "The NaN check never fires: refuted; NaN at unmasked pixels is passed through."
  },
  {
   "property": "C35",
   "status": "partial",
   "theorems": [
    "Pxmcmc.C35_diagonal",
    "Pxmcmc.C35_rejects",
    "Pxmcmc.C35_matrix_refuted",
    "Pxmcmc.C35_complex_data_refuted",
    "Pxmcmc.C35_npscalar_complex"
   ],
   "note": "Real data with a float or a vector: proved, with the rejections. A square covariance matrix always raises TypeError (refuted); complex data with real sig_d gets a complex covariance (refuted); numpy scalars that are not doubles are accepted when the data are complex."
  },
  {
   "property": "C36",
   "status": "proved",
   "theorems": [
    "Pxmcmc.C36_logpi_real"
   ],
   "note": "L2 is the weighted squared residual; logPi<=0; L2=0 iff perfect predictions."
  },
  {
   "property": "C37",
   "status": "partial",
   "theorems": [
    "Pxmcmc.C37_complex_misfit_partial",
    "Pxmcmc.C37_complex_misfit_refuted"
   ],
   "note": "False in the code: L2 = (1-i)/sqrt(2) times the weighted squared residual. Refuted; exact real part, imaginary part and modulus proved."
  },
  {
   "property": "C38",
   "status": "partial",
   "theorems": [
    "Pxmcmc.C38_gradient_partial",
    "Pxmcmc.C38_complex_data_refuted"
   ],
   "note": "Real data, every linear measurement/transform, both settings: proved as HasDerivAt. Complex data: refuted (non-Hermitian covariance)."
  },
  {
   "property": "C39",
   "status": "partial",
   "theorems": [
    "Pxmcmc.C39_sampler_gradient_refuted",
    "Pxmcmc.C39_sampler_gradient_partial"
   ],
   "note": "False in the code: the gradient is exactly half that of the data term of logpi. Refuted; the factor 2 proved."
  },
  {
   "property": "C40",
   "status": "proved",
   "theorems": [
    "Pxmcmc.C40_setting_checked",
    "Pxmcmc.C40_settings",
    "Pxmcmc.C40_gradient_is_adjoint"
   ],
   "note": "Setting check, compositions, and adjointness of the gradient to the whole forward map."
  },
  {
   "property": "C41",
   "status": "proved",
   "theorems": [
    "Pxmcmc.C41_schedule",
    "Pxmcmc.C41_terminates"
   ],
   "note": "Exact iteration count and states for operators that accept every vector; for arbitrary (raising) operators the loop never runs longer, nor shorter unless an exception is raised. nburn, ngap natural numbers."
  },
  {
   "property": "C42",
   "status": "proved",
   "theorems": [
    "Pxmcmc.C42_schedule",
    "Pxmcmc.C42_terminates"
   ],
   "note": "As C41 with the step of SKROCK itself."
  },
  {
   "property": "C43",
   "status": "proved",
   "theorems": [
    "Pxmcmc.C43_rows_mala",
    "Pxmcmc.C43_rows_myula",
    "Pxmcmc.C43_rows_skrock"
   ],
   "note": "All three samplers, arbitrary operators, for every run that returns."
  },
  {
   "property": "C44",
   "status": "partial",
   "theorems": [
    "Pxmcmc.C44_longer_runs_mala",
    "Pxmcmc.C44_mala_select_refuted",
    "Pxmcmc.C44_myula",
    "Pxmcmc.C44_skrock",
    "Pxmcmc.C44_longer_runs",
    "Pxmcmc.C44_select"
   ],
   "note": "False for PxMALA: burn-in and thinning do not select rows, because only accepted iterations are saved (C44_mala_select_refuted). Proved in full for MYULA and SKROCK; for PxMALA the first half (longer runs extend shorter ones) is proved."
  },
  {
   "property": "C45",
   "status": "proved",
   "theorems": [
    "Pxmcmc.C45_rejects",
    "Pxmcmc.C45_accepts"
   ],
   "note": "All three samplers; an accepted start point is used unchanged, None draws Laplace variates."
  },
  {
   "property": "C46",
   "status": "proved",
   "theorems": [
    "Pxmcmc.C46_law_real",
    "Pxmcmc.C46_law_complex"
   ],
   "note": "Real and complex noise, joint law of all coordinates (independent Gaussians); the operators are assumed defined on every vector."
  },
  {
   "property": "C47",
   "status": "proved",
   "theorems": [
    "Pxmcmc.C47_never_separate"
   ],
   "note": "Shown for delta*(1/lmda+Lf) <= 2, twice the step size asked for; Lf=0 is the case without data term. prox is the proximal map of any convex function."
  },
  {
   "property": "C48",
   "status": "proved",
   "theorems": [
    "Pxmcmc.C48_synced"
   ],
   "note": "Invariant of every reachable PxMALA state: predictions, gradient, prox, log-posterior, misfit and prior are those of the current sample."
  },
  {
   "property": "C49",
   "status": "partial",
   "theorems": [
    "Pxmcmc.C49_rejections_refuted",
    "Pxmcmc.C49_accepted_states_partial"
   ],
   "note": "False in the code: a row is written only when the iteration accepted, so rejections (repeats) are dropped (C49_rejections_refuted). Proved: row k is the state after the k-th accepted thinned post-burn-in iteration."
  },
  {
   "property": "C50",
   "status": "proved",
   "theorems": [
    "Pxmcmc.C50_traces"
   ],
   "note": "Invariant of every reachable PxMALA state."
  },
  {
   "property": "C51",
   "status": "proved",
   "theorems": [
    "Pxmcmc.C51_tuned",
    "Pxmcmc.C51_untuned"
   ],
   "note": "For every reachable state, with and without tuning."
  },
  {
   "property": "C52",
   "status": "proved",
   "theorems": [
    "Pxmcmc.C52_probability"
   ],
   "note": "Lebesgue measure of the accepting u in [0,1); also for complex log ratios, where the real part decides."
  },
  {
   "property": "C53",
   "status": "partial",
   "theorems": [
    "Pxmcmc.C53_transition_refuted",
    "Pxmcmc.C53_balance_refuted",
    "Pxmcmc.C53_ratio_partial",
    "Pxmcmc.C53_invariance_refuted"
   ],
   "note": "False in the code: calc_logtransition has delta/2 for delta, 1/2*delta for 1/(4 delta), and squares the sum again; both the density claim and detailed balance with the true proposal are refuted on a one-parameter sampler. C53_invariance_refuted draws the consequence for every datum, standard deviation s and step 0 < delta < 4 s^2: in the one-parameter denoising problem with a flat prior, built by the constructors, one PxMALA iteration preserves neither the posterior exp(logpi) nor any other normal law centred at the datum. Proved: the ratio is in detailed balance with exp(logpi) and the code's own transition function."
  },
  {
   "property": "C54",
   "status": "partial",
   "theorems": [
    "Pxmcmc.C54_stops_partial",
    "Pxmcmc.C54_terminates_refuted"
   ],
   "note": "False in the code: a stream that rejects for ever never returns (C54_terminates_refuted). Proved: a returned run has exactly nsamples acceptances on thinned post-burn-in iterations, the last one at the last iteration; a run still going has fewer; with operators defined on every vector no exception occurs. With random numbers that are independent from one iteration to the next the run returns with probability one (C119)."
  },
  {
   "property": "C55",
   "status": "proved",
   "theorems": [
    "Pxmcmc.C55_crash_mala",
    "Pxmcmc.C55_crash_myula",
    "Pxmcmc.C55_crash_skrock"
   ],
   "note": "All three samplers, every prefix of the event sequence of a returned run."
  },
  {
   "property": "C56",
   "status": "partial",
   "theorems": [
    "Pxmcmc.C56_counters_partial",
    "Pxmcmc.C56_track_list_refuted",
    "Pxmcmc.C56_skrock_counter_refuted"
   ],
   "note": "False in the code: with verbosity>0 a track list without logposterior, L2 and prior raises AttributeError; SKROCK prints counter 0 during burn-in. Both refuted. Proved: counters of MYULA in 1..nsamples, of SKROCK in 0..nsamples; runs with the three arrays tracked return (C41/C42)."
  },
  {
   "property": "C57",
   "status": "partial",
   "theorems": [
    "Pxmcmc.C57_stored_partial",
    "Pxmcmc.C57_stored_refuted"
   ],
   "note": "False in the code: complex predictions are stored in a float array and lose their imaginary part (refuted). Exact storage of real predictions, and of states when complex=True or the state is real, proved."
  },
  {
   "property": "C58",
   "status": "proved",
   "theorems": [
    "Pxmcmc.C58_nan_rejected",
    "Pxmcmc.C58_never_nan",
    "Pxmcmc.C58_nan_start",
    "Pxmcmc.C58_minus_inf_rejected",
    "Pxmcmc.C58_plus_inf_stuck",
    "Pxmcmc.C58_minus_inf_leaves",
    "Pxmcmc.C58_finite",
    "Pxmcmc.C58_finite_complex"
   ],
   "note": "Acceptance test modelled with NaN, infinities and numpy's complex comparison; finite sums are exact. The values computed before the decision are arbitrary."
  },
  {
   "property": "C59",
   "status": "proved",
   "theorems": [
    "Pxmcmc.C59_second_run_skrock",
    "Pxmcmc.C59_second_run_mala",
    "Pxmcmc.C59_second_run_myula"
   ],
   "note": "All three samplers; for PxMALA also the traces and the initial step size of the second run."
  },
  {
   "property": "C60",
   "status": "proved",
   "theorems": [
    "Pxmcmc.C60_width",
    "Pxmcmc.C60_ends",
    "Pxmcmc.C60_antitone",
    "Pxmcmc.C60_alpha_checked",
    "Pxmcmc.C60_above_one"
   ],
   "note": "numpy 1.24 linear quantile on real chains with at least one sample; also: levels between 1 and 2 are accepted and give negated widths. Complex chains are C74."
  },
  {
   "property": "C61",
   "status": "proved",
   "theorems": [
    "Pxmcmc.C61_permute",
    "Pxmcmc.C61_shift",
    "Pxmcmc.C61_scale"
   ],
   "note": "Real chains. Permutations may differ per parameter, shifts too."
  },
  {
   "property": "C62",
   "status": "proved",
   "theorems": [
    "Pxmcmc.C62_partition",
    "Pxmcmc.C62_rejects"
   ],
   "note": "Real or complex chains, any order used for sorting."
  },
  {
   "property": "C63",
   "status": "proved",
   "theorems": [
    "Pxmcmc.C63_coverage",
    "Pxmcmc.C63_antitone",
    "Pxmcmc.C63_alpha_checked"
   ],
   "note": "Real log-posteriors, at least one sample. The direction of the comparison is the subject of C64."
  },
  {
   "property": "C64",
   "status": "partial",
   "theorems": [
    "Pxmcmc.C64_best_excluded",
    "Pxmcmc.C64_best_in_region_refuted",
    "Pxmcmc.C64_region_partial"
   ],
   "note": "False in the code: the region is logpi <= threshold, so a unique best sample among two or more is never in it for alpha>0 (C64_best_excluded, C64_best_in_region_refuted). Proved: the least probable sample always is, and alpha=0 gives everything."
  },
  {
   "property": "C65",
   "status": "proved",
   "theorems": [
    "Pxmcmc.C65_saved",
    "Pxmcmc.C65_tracked",
    "Pxmcmc.C65_raises",
    "Pxmcmc.C65_path"
   ],
   "note": "h5py as map of datasets and attributes; which values it can store and which paths open are parameters. Keys of params.__dict__ and of **kwargs are distinct, as in every dict."
  },
  {
   "property": "C66",
   "status": "partial",
   "theorems": [
    "Pxmcmc.C66_interrupted_refuted",
    "Pxmcmc.C66_failed_save_refuted",
    "Pxmcmc.C66_preserved_partial"
   ],
   "note": "False in the code: mode \"w\" truncates first (C66_interrupted_refuted for every sampler, C66_failed_save_refuted for an unstorable keyword). Proved: other files are untouched, an unopenable path changes nothing, and an unstorable attribute still leaves all datasets of the new run."
  },
  {
   "property": "C67",
   "status": "partial",
   "theorems": [
    "Pxmcmc.C67_preserved_partial",
    "Pxmcmc.C67_effect",
    "Pxmcmc.C67_centre0",
    "Pxmcmc.C67_masked",
    "Pxmcmc.C67_caller_refuted",
    "Pxmcmc.C67_replot_refuted"
   ],
   "note": "False in the code: without oversampling a mask overwrites the caller's array with NaN (C67_caller_refuted), and a second plot then has a NaN colour range (C67_replot_refuted). Proved: no change with oversampling, without mask, or when the call raises; centre0 covers every pixel of NaN-free real maps. matplotlib is not modelled."
  },
  {
   "property": "C68",
   "status": "partial",
   "theorems": [
    "Pxmcmc.C68_round_trip_partial",
    "Pxmcmc.C68_adjoints_partial",
    "Pxmcmc.C68_harmonic_refuted"
   ],
   "note": "False for harmonic=True: nscal is always counted with the pixel routine (C68_harmonic_refuted, on toy routines with the true sizes for L=2). Proved for harmonic=False, and for harmonic=True when the counts agree. pys2let routines are parameters."
  },
  {
   "property": "C69",
   "status": "proved",
   "theorems": [
    "Pxmcmc.C69_calls",
    "Pxmcmc.C69_slices",
    "Pxmcmc.C69_rejects"
   ],
   "note": "plot_map, analysis_px2wav and _multires_bandlimits are parameters."
  },
  {
   "property": "C70",
   "status": "proved",
   "theorems": [
    "Pxmcmc.C70_restored",
    "Pxmcmc.C70_exception",
    "Pxmcmc.C70_silent",
    "Pxmcmc.C70_closed",
    "Pxmcmc.C70_healpy"
   ],
   "note": "Bodies are programs that print, assign sys.stdout, raise, catch and nest; a failing open of the null device included. No threads."
  },
  {
   "property": "C71",
   "status": "proved",
   "theorems": [
    "Pxmcmc.C71_snr_scale",
    "Pxmcmc.C71_snr_swap",
    "Pxmcmc.C71_snr_nonneg"
   ],
   "note": "Scaling, swap and sign laws."
  },
  {
   "property": "C72",
   "status": "proved",
   "theorems": [
    "Pxmcmc.C72_bandlimits",
    "Pxmcmc.C72_zero_function_raises",
    "Pxmcmc.C72_succeeds"
   ],
   "note": "Smallest vanishing degree, range, failure on zero functions, success otherwise."
  },
  {
   "property": "C73",
   "status": "proved",
   "theorems": [
    "Pxmcmc.C73_fields",
    "Pxmcmc.C73_short",
    "Pxmcmc.C73_negative"
   ],
   "note": "File as a sequence of 4-byte words, any non-negative npix, complete file: every field is the right npix words. Truncated files silently give fewer (C73_short)."
  },
  {
   "property": "C74",
   "status": "partial",
   "theorems": [
    "Pxmcmc.C74_real_part_partial",
    "Pxmcmc.C74_complex_width_refuted"
   ],
   "note": "False in the code: numpy sorts complex numbers lexicographically, so widths can have an imaginary part (refuted). Proved: the real part is the width of the real parts, hence non-negative by C60."
  },
  {
   "property": "C75",
   "status": "partial",
   "theorems": [
    "Pxmcmc.C75_oversample_partial",
    "Pxmcmc.C75_large_refuted"
   ],
   "note": "False in the code: with the default oversample=True any map with L>256 raises ValueError (C75_large_refuted). Proved for L<=256: harmonic coefficients kept, zero beyond L, given exact pyssht transforms."
  },
  {
   "property": "C76",
   "status": "partial",
   "theorems": [
    "Pxmcmc.C76_upper_partial",
    "Pxmcmc.C76_same_scale_refuted",
    "Pxmcmc.C76_centre0_refuted"
   ],
   "note": "False in the code: same_scale fixes only vmax, so colour scales differ at the lower end (C76_same_scale_refuted); with centre0=True, as in phasevel/plot.py:144-146, it has no effect and both limits differ (C76_centre0_refuted). Proved: the vmax passed on is common and is the largest real part of the wavelet coefficients."
  },
  {
   "property": "C77",
   "status": "proved",
   "theorems": [
    "Pxmcmc.C77_map_indices"
   ],
   "note": "NaN-free log-posteriors; drawing not modelled."
  },
  {
   "property": "C78",
   "status": "partial",
   "theorems": [
    "Pxmcmc.C78_checks_partial",
    "Pxmcmc.C78_nres14_refuted"
   ],
   "note": "False in the code: nres=14 always fails an assertion (C78_nres14_refuted). Proved: nres 12 and 13 accept exactly the documented settings."
  },
  {
   "property": "C79",
   "status": "proved",
   "theorems": [
    "Pxmcmc.C79_weights",
    "Pxmcmc.C79_whitens",
    "Pxmcmc.C79_no_counts"
   ],
   "note": "The second clause needs positive counts at observed pixels. The square root is exact."
  },
  {
   "property": "C80",
   "status": "proved",
   "theorems": [
    "Pxmcmc.C80_envelope_gradient",
    "Pxmcmc.C80_close",
    "Pxmcmc.C80_l1"
   ],
   "note": "General convex prior with exact proximal map, and the L1 prior in the synthesis setting with T=lmda*mu. The bound is lmda/2 times the sum of squared weights for weighted norms."
  },
  {
   "property": "C81",
   "status": "proved",
   "theorems": [
    "Pxmcmc.C81_drift"
   ],
   "note": "Real data with standard deviations. The operators satisfy LinModel (linear with correct adjoints), which C38 derives from the measurement and transform in both settings."
  },
  {
   "property": "C82",
   "status": "proved",
   "theorems": [
    "Pxmcmc.C82_log_concave"
   ],
   "note": "Real data with standard deviations; the prior is convex and non-negative."
  },
  {
   "property": "C83",
   "status": "proved",
   "theorems": [
    "Pxmcmc.C83_wavelet_operator",
    "Pxmcmc.C83_path_operator",
    "Pxmcmc.C83_path_columns"
   ],
   "note": "The pys2let routines are parameters assumed to round-trip, to have the right sizes and correct adjoints (S2Routines.Sound; linearity of the inverse follows). Real data with standard deviations. C83_path_columns: a path matrix with the wrong number of columns makes every prediction fail."
  },
  {
   "property": "C84",
   "status": "partial",
   "theorems": [
    "Pxmcmc.C84_analysis_fails",
    "Pxmcmc.C84_synthesis_partial",
    "Pxmcmc.C84_lensing_partial",
    "Pxmcmc.C84_phasevel_partial",
    "Pxmcmc.C84_settings_refuted"
   ],
   "note": "False in the code: the wavelet priors raise NotImplementedError in the analysis setting, so all three scripts fail (C84_analysis_fails, C84_settings_refuted). Proved in the synthesis setting given Sound pys2let routines and wavelet maps with as many samples as there are coefficients: for earth-topography (C84_synthesis_partial); for weak lensing with any measurement that is linear and comes with its adjoint (C84_lensing_partial); for phase velocity only with real data and non-negative weights of matching length, and there proxf is the proximal map of a different weighted norm from the one prior computes (C84_phasevel_partial, see C11)."
  },
  {
   "property": "C85",
   "status": "partial",
   "theorems": [
    "Pxmcmc.C85_fourth_power_partial",
    "Pxmcmc.C85_weights_refuted"
   ],
   "note": "False in the code: data and predictions are already weighted and the errors are the reciprocal weights, so residuals are weighted by the squared inverse variance (C85_weights_refuted). Proved: the absolute value of the reported misfit is the sum of weight^4 times squared residuals."
  },
  {
   "property": "C86",
   "status": "partial",
   "theorems": [
    "Pxmcmc.C86_levels_partial",
    "Pxmcmc.C86_million",
    "Pxmcmc.C86_units_refuted"
   ],
   "note": "False in the code: the data are divided by 1000 but the errors are not, so the misfit at the true map is a millionth of the claim (C86_units_refuted, C86_million). Proved: the noise levels. Complex data (HEALPix input), absolute value of the misfit."
  },
  {
   "property": "C87",
   "status": "partial",
   "theorems": [
    "Pxmcmc.C87_formats_partial",
    "Pxmcmc.C87_mw_fails",
    "Pxmcmc.C87_formats_refuted"
   ],
   "note": "False in the code: MW input fails for every L>=2 (C87_mw_fails, C87_formats_refuted). Model of array shapes only. Proved: HEALPix input gives consistent shapes for all L; MW for L=1."
  },
  {
   "property": "C88",
   "status": "partial",
   "theorems": [
    "Pxmcmc.C88_topo_refuted",
    "Pxmcmc.C88_files_partial"
   ],
   "note": "False for earthtopography/plot.py, which always raises TypeError (C88_topo_refuted). Proved for the other two scripts. Existing files and write errors are not modelled."
  },
  {
   "property": "C89",
   "status": "proved",
   "theorems": [
    "Pxmcmc.C89_rows",
    "Pxmcmc.C89_negative_burn"
   ],
   "note": "The transform is a parameter assumed to return images of the right size. C89_negative_burn shows what a negative burn does."
  },
  {
   "property": "C90",
   "status": "partial",
   "theorems": [
    "Pxmcmc.C90_read_partial",
    "Pxmcmc.C90_single_refuted"
   ],
   "note": "False in the code: a file with a single path fails (C90_single_refuted). Proved for two or more rows. File parsing itself is not modelled."
  },
  {
   "property": "C91",
   "status": "proved",
   "theorems": [
    "Pxmcmc.C91_path_matrix",
    "Pxmcmc.C91_nsim",
    "Pxmcmc.C91_nsim_errors"
   ],
   "note": "build_path is a parameter; starmap is taken to keep the order. C91_nsim is about equal errors and residuals."
  },
  {
   "property": "C92",
   "status": "partial",
   "theorems": [
    "Pxmcmc.C92_map_partial",
    "Pxmcmc.C92_nan_first",
    "Pxmcmc.C92_map_refuted"
   ],
   "note": "False in the code: if the first log-posterior is NaN the script raises IndexError (C92_nan_first, C92_map_refuted). Proved if the first one is not NaN. Real log-posteriors."
  },
  {
   "property": "C93",
   "status": "partial",
   "theorems": [
    "Pxmcmc.C93_noise_refuted",
    "Pxmcmc.C93_no_noise_partial"
   ],
   "note": "False in the code: results with added noise and L>=2 make the script raise ValueError (C93_noise_refuted). Proved: results without noise plot none."
  },
  {
   "property": "C94",
   "status": "partial",
   "theorems": [
    "Pxmcmc.C94_half_step",
    "Pxmcmc.C94_half_refuted",
    "Pxmcmc.C94_equal_partial"
   ],
   "note": "False for the phase-velocity and weak-lensing scripts, where lmda=delta/2 (C94_half_refuted, C94_half_step). Proved for delta=lmda=1e-6 (earth topography) if the data term is Hermitian with eigenvalues in [0, 1e6]; for complex data, which the HEALPix branch produces, it is not Hermitian (see C37, C38)."
  },
  {
   "property": "C95",
   "status": "proved",
   "theorems": [
    "Pxmcmc.C95_myula",
    "Pxmcmc.C95_skrock",
    "Pxmcmc.C95_mala",
    "Pxmcmc.C95_less_myula",
    "Pxmcmc.C95_less_skrock",
    "Pxmcmc.C95_less_mala"
   ],
   "note": "For PxMALA the second part holds with any verbosity. That more printing can make a run fail is C56."
  },
  {
   "property": "C96",
   "status": "proved",
   "theorems": [
    "Pxmcmc.C96_myula",
    "Pxmcmc.C96_real",
    "Pxmcmc.C96_skrock_mala"
   ],
   "note": "Data with cplx=false (real dtype) and standard deviations; threshold T>=0. C96_real additionally takes real data values and a real start. PxMALA may run forever (C54)."
  },
  {
   "property": "C97",
   "status": "partial",
   "theorems": [
    "Pxmcmc.C97_law_partial",
    "Pxmcmc.C97_law_refuted"
   ],
   "note": "False in the code: the limiting variance is at least sigma^2, while exp(logpi) has variance sigma^2/2, because logpi lacks the factor 1/2 that the gradient has (C97_law_refuted). Proved: the exact product Gaussian law of every sample, its mean and variance and their limits. The generator is assumed to yield independent standard normals (NormalStream)."
  },
  {
   "property": "C98",
   "status": "partial",
   "theorems": [
    "Pxmcmc.C98_defaults_partial",
    "Pxmcmc.C98_defaults_refuted",
    "Pxmcmc.C98_sampler_copies",
    "Pxmcmc.C98_sampler_refuted"
   ],
   "note": "False in the code: appending to the track list of one default object changes the default of later ones (C98_defaults_refuted) and of samplers already built from it (C98_sampler_refuted). Proved: programs that never append to the default list; later attribute assignments. Objects, lists and statements of a small program language are modelled."
  },
  {
   "property": "C99",
   "status": "proved",
   "theorems": [
    "Pxmcmc.C99_contract",
    "Pxmcmc.C99_ergodic",
    "Pxmcmc.C99_normal_noise"
   ],
   "note": "About the steps of MYULA as run in the loop. Hypotheses: every call succeeds (Total), proxf is the proximal map of a convex function, the data gradient is affine with Hermitian matrix between c and Lf, delta*(1/lmda+Lf+c)<=2. C99_normal_noise shows that independent standard normals meet the noise hypothesis. Which distribution is reached is not claimed (see C97)."
  },
  {
   "property": "C100",
   "status": "proved",
   "theorems": [
    "Pxmcmc.C100_semigroup",
    "Pxmcmc.C100_scale",
    "Pxmcmc.C100_permute",
    "Pxmcmc.C100_monotone"
   ],
   "note": "One-dimensional arrays."
  },
  {
   "property": "C101",
   "status": "proved",
   "theorems": [
    "Pxmcmc.C101_l1_norm",
    "Pxmcmc.C101_wavelet_norm",
    "Pxmcmc.C101_wavelet_integral"
   ],
   "note": "Synthesis setting for the wavelet prior (the only one it supports). Coefficients are one MW map per scale, concatenated."
  },
  {
   "property": "C102",
   "status": "proved",
   "theorems": [
    "Pxmcmc.C102_rate",
    "Pxmcmc.C102_limits",
    "Pxmcmc.C102_diminishing"
   ],
   "note": "The bounds hold for every prefix of a run that does not raise; the initial delta is assumed to lie in [1e-8*lmda, lmda/2], as the default does."
  },
  {
   "property": "C103",
   "status": "partial",
   "theorems": [
    "Pxmcmc.C103_fresh",
    "Pxmcmc.C103_row_count",
    "Pxmcmc.C103_short_file",
    "Pxmcmc.C103_other_bandlimit",
    "Pxmcmc.C103_same_paths_partial",
    "Pxmcmc.C103_saved_here_refuted",
    "Pxmcmc.C103_stale_refuted"
   ],
   "note": "False: the stored matrix is not compared with the data file, so another file with as many lines silently reuses the old paths (C103_stale_refuted); a name without .npz is saved elsewhere and never found again (C103_saved_here_refuted). Proved: building and reuse for .npz names, correctness when the name is kept for one set of paths, detection of other row counts and bandlimits."
  },
  {
   "property": "C104",
   "status": "proved",
   "theorems": [
    "Pxmcmc.C104_mass_sheet",
    "Pxmcmc.C104_full_sky",
    "Pxmcmc.C104_kaiser_squires",
    "Pxmcmc.C104_gradient"
   ],
   "note": "pyssht transforms are parameters; the hypotheses about them are stated in each theorem."
  },
  {
   "property": "C105",
   "status": "proved",
   "theorems": [
    "Pxmcmc.C105_relative_error",
    "Pxmcmc.C105_constant_counts"
   ],
   "note": "Exact arithmetic; data vector not zero. Rounding to two decimals when printing is not modelled."
  },
  {
   "property": "C106",
   "status": "partial",
   "theorems": [
    "Pxmcmc.C106_shown_observed_partial",
    "Pxmcmc.C106_same_mask_refuted"
   ],
   "note": "False: main.py uses size=10, plot.py size=20 (C106_same_mask_refuted). Proved: every pixel shown was observed; the masks differ exactly at the pixels between 10 and 20 degrees. astropy coordinate transform is a parameter."
  },
  {
   "property": "C107",
   "status": "partial",
   "theorems": [
    "Pxmcmc.C107_name_unique",
    "Pxmcmc.C107_preserved_partial",
    "Pxmcmc.C107_overwritten_refuted"
   ],
   "note": "False for runs with the same algorithm, setting and job id started in the same second (C107_overwritten_refuted). Proved: names coincide exactly in that case, otherwise the earlier file is kept."
  },
  {
   "property": "C108",
   "status": "partial",
   "theorems": [
    "Pxmcmc.C108_analysis_refuted",
    "Pxmcmc.C108_synthesis_partial"
   ],
   "note": "False for chains of the analysis setting, which always raise ValueError (C108_analysis_refuted; the finest scale is assumed to have bandlimit L). Proved for the synthesis setting."
  },
  {
   "property": "C109",
   "status": "partial",
   "theorems": [
    "Pxmcmc.C109_mask",
    "Pxmcmc.C109_kept_partial",
    "Pxmcmc.C109_drawn_partial",
    "Pxmcmc.C109_masked_refuted",
    "Pxmcmc.C109_visible"
   ],
   "note": "False for L>=256 without --no-mask (the default of main.py is L=512): plot_map writes NaN into the hidden pixels of the script's own MAP array, so the saved map and difference contain NaN, the colour limit of the difference plot is NaN and \"MAP R2E: nan\" is printed, for every chain (C109_masked_refuted). Proved for L<256 and for --no-mask; visible pixels always keep their values (C109_visible). wl.forward on maps with NaN is a parameter, assumed to return NaN somewhere."
  },
  {
   "property": "C110",
   "status": "partial",
   "theorems": [
    "Pxmcmc.C110_wider_partial",
    "Pxmcmc.C110_label_refuted"
   ],
   "note": "False: alpha is 0.01, so the 99% width is drawn (C110_label_refuted). Proved: the width drawn is at least the 95% width. Real chains; the discarded imaginary parts are not modelled."
  },
  {
   "property": "C111",
   "status": "proved",
   "theorems": [
    "Pxmcmc.C111_symmetric",
    "Pxmcmc.C111_capped",
    "Pxmcmc.C111_masked"
   ],
   "note": "Limits are for the pixel values of the difference; values that oversampling for drawing puts between pixels are not considered. No NaN (see C109 for the case with NaN)."
  },
  {
   "property": "C112",
   "status": "partial",
   "theorems": [
    "Pxmcmc.C112_distinct_partial",
    "Pxmcmc.C112_fresh_refuted"
   ],
   "note": "False: the figure number is random below 1000, so among 1001 calls two return the same figure (C112_fresh_refuted). Proved: two calls share a figure exactly if they draw the same number. No figures exist before the first call and none is closed."
  },
  {
   "property": "C113",
   "status": "partial",
   "theorems": [
    "Pxmcmc.C113_every_count_refuted",
    "Pxmcmc.C113_one_stage_partial",
    "Pxmcmc.C113_two_stage_refuted"
   ],
   "note": "False for every number of stages above one: for every convex model with delta*(1/lmda+Lf)<=max(1,s^2/9) the distance of two chains grows by at least 3/2 in every step (C113_every_count_refuted; by 2 for two stages, C113_two_stage_refuted). Proved for one stage, where delta*(1/lmda+Lf)<=2 suffices."
  },
  {
   "property": "C114",
   "status": "proved",
   "theorems": [
    "Pxmcmc.C114_averages",
    "Pxmcmc.C114_normal_noise"
   ],
   "note": "Noise vectors are independent with finite second moment (standard normals qualify, C114_normal_noise). The limit is the stationary law of the discretised chain, which is not the posterior itself. Runs are assumed to return (C41) and to track the chain."
  },
  {
   "property": "C115",
   "status": "proved",
   "theorems": [
    "Pxmcmc.C115_unique_quantile",
    "Pxmcmc.C115_interval"
   ],
   "note": "np.random.randn is assumed to deliver independent standard normals. The limit is the stationary law of the discretised chain, not the posterior itself. Runs are assumed to return (C41) and to track the chain."
  },
  {
   "property": "C116",
   "status": "proved",
   "theorems": [
    "Pxmcmc.C116_denoising"
   ],
   "note": "np.random.randn is assumed to deliver independent standard normals. The stationary law is that of the discretised chain, not the posterior itself (C97)."
  },
  {
   "property": "C117",
   "status": "partial",
   "theorems": [
    "Pxmcmc.C117_phasevel_lensing",
    "Pxmcmc.C117_topography_partial",
    "Pxmcmc.C117_topography_refuted"
   ],
   "note": "False for earthtopography with --makenoise and every band limit L >= 65: the noise array is saved as an HDF5 attribute, which must stay below 64 KiB, so save_mcmc raises after the run and the file lacks the setting (C117_topography_refuted). Proved for phasevel and weaklensing, and for earthtopography without noise or with L <= 64. The size limit of HDF5 attributes is an assumption (H5Limit); which exception is raised is not claimed."
  },
  {
   "property": "C118",
   "status": "proved",
   "theorems": [
    "Pxmcmc.C118_threshold"
   ],
   "note": "np.random.randn is assumed to deliver independent standard normals; data values real and mu >= 0. That points of largest posterior are rejected is the limit form of C64: the comparison in in_credible_region points the wrong way."
  },
  {
   "property": "C119",
   "status": "proved",
   "theorems": [
    "Pxmcmc.C119_untuned",
    "Pxmcmc.C119_tuned",
    "Pxmcmc.C119_denoising"
   ],
   "note": "np.random.rand is taken to be uniform on [0,1) and independent of the noise and of earlier iterations; the law of the noise is arbitrary. With tuning and ngap >= 2 nothing is claimed. That not every stream lets the run return is C54_terminates_refuted."
  },
  {
   "property": "C120",
   "status": "proved",
   "theorems": [
    "Pxmcmc.C120_real",
    "Pxmcmc.C120_complex",
    "Pxmcmc.C120_denoising",
    "Pxmcmc.C120_mean_real",
    "Pxmcmc.C120_mean_complex"
   ],
   "note": "Expectations under the posterior are quotients of Lebesgue integrals over real coordinates. The constants C and m are existential; in the proof m is the posterior mean of the norm. The bound is for the density with half the misfit, which is what the drift of MYULA follows (C81); the method logpi reports the whole misfit."
  },
  {
   "property": "C121",
   "status": "partial",
   "theorems": [
    "Pxmcmc.C121_diverges_refuted",
    "Pxmcmc.C121_escape_refuted",
    "Pxmcmc.C121_saved_refuted",
    "Pxmcmc.C121_no_stationary_refuted",
    "Pxmcmc.C121_normal_noise",
    "Pxmcmc.C121_one_stage_partial"
   ],
   "note": "False for every number of stages above one: almost surely the largest entry of the k-th state exceeds (4/3)^k from some step on (C121_diverges_refuted), the probability of any bounded region decreases like (2/3)^k (C121_escape_refuted), and no stationary law exists (C121_no_stationary_refuted); the noise is assumed independent with no ball of radius e of mass above C*e, which standard normals satisfy (C121_normal_noise). Proved for one stage when the data term determines the parameters. The saved rows satisfy the same bound (C121_saved_refuted)."
  },
  {
   "property": "C122",
   "status": "proved",
   "theorems": [
    "Pxmcmc.C122_burn_in",
    "Pxmcmc.C122_denoising"
   ],
   "note": "The constant D and, in the denoising set-up, lmda0, delta0 and the burn-in length are existential. Noise vectors independent with finite second moment (general part) or standard normal (denoising)."
  },
  {
   "property": "C123",
   "status": "partial",
   "theorems": [
    "Pxmcmc.C123_names",
    "Pxmcmc.C123_checks_refuted",
    "Pxmcmc.C123_checks_partial",
    "Pxmcmc.C123_url",
    "Pxmcmc.C123_fresh",
    "Pxmcmc.C123_found",
    "Pxmcmc.C123_recovers_partial",
    "Pxmcmc.C123_leftover_refuted",
    "Pxmcmc.C123_truncated_refuted",
    "Pxmcmc.C123_error_page_refuted"
   ],
   "note": "False in three ways: nres=14, which the comments offer, fails the check \"assert nres == 0\" (C123_checks_refuted); a run killed while downloading leaves a truncated file that every later run works on without asking the server again (C123_truncated_refuted), as does an error page, since the status is not looked at (C123_error_page_refuted); a run killed between writing and renaming output.fits makes every later run raise, because healpy refuses to overwrite (C123_leftover_refuted). Proved: checks for nres 12 and 13, injective names, address, undisturbed runs, no second fetch, and recovery when killed before the file is opened or between download and conversion. Printing and the progress bar are left out."
  },
  {
   "property": "C124",
   "status": "proved",
   "theorems": [
    "Pxmcmc.C124_constructor",
    "Pxmcmc.C124_myula_skrock",
    "Pxmcmc.C124_mala"
   ],
   "note": "Widths are those of the values written; a step that raises writes nothing further. Writes are compared at every prefix of the list of writes."
  },
  {
   "property": "C125",
   "status": "proved",
   "theorems": [
    "Pxmcmc.C125_accuracy",
    "Pxmcmc.C125_denoising"
   ],
   "note": "The constant D and, in the denoising set-up, lmda0, delta0 and the number of samples are existential. Noise vectors independent with finite second moment (general part) or standard normal (denoising)."
  },
  {
   "property": "C126",
   "status": "proved",
   "theorems": [
    "Pxmcmc.C126_wavelet_prior",
    "Pxmcmc.C126_real",
    "Pxmcmc.C126_complex",
    "Pxmcmc.C126_runs",
    "Pxmcmc.C126_l1_synthesis",
    "Pxmcmc.C126_l1_analysis",
    "Pxmcmc.C126_path_integrals"
   ],
   "note": "No rate is given. np.random.randn is assumed to deliver independent standard normals (complex samplers: independent real and imaginary parts). For real samplers operator, frame, data and start are real, and uniqueness is among laws on the real vectors. The l1 priors in both settings are covered (C126_l1_synthesis, C126_l1_analysis); C126_path_integrals starts from the constructors. The wavelet prior is covered by C126_wavelet_prior."
  },
  {
   "property": "C127",
   "status": "proved",
   "theorems": [
    "Pxmcmc.C127_entries",
    "Pxmcmc.C127_nonneg_south",
    "Pxmcmc.C127_zero_weight_kept",
    "Pxmcmc.C127_peak_zero",
    "Pxmcmc.C127_no_axisymmetric_part",
    "Pxmcmc.C127_scale"
   ],
   "note": "The tiling is an arbitrary array pair with the shapes pys2let returns; the peak is found by numpy's signed order on complex numbers, so that negating a wavelet can set its weights to zero. Restricted to eta>=0: for k=0 and eta<0 the code gives inf or raises."
  },
  {
   "property": "C128",
   "status": "partial",
   "theorems": [
    "Pxmcmc.C128_moments_partial",
    "Pxmcmc.C128_spread_refuted",
    "Pxmcmc.C128_unstable_refuted"
   ],
   "note": "False: the variance is multiplied by (1+i)/sqrt(2), which turns the drift by 45 degrees, so E|x-d|^2 tends to 4*sig_d^2/(sqrt(2)-delta/sig_d^2) > 2*sqrt(2)*sig_d^2 (C128_spread_refuted) and steps between sqrt(2)*sig_d^2 and 2*sig_d^2 make it grow without bound (C128_unstable_refuted). Proved: exact mean and mean square of every iterate and their limits for delta < sqrt(2)*sig_d^2."
  },
  {
   "property": "C129",
   "status": "proved",
   "theorems": [
    "Pxmcmc.C129_converges",
    "Pxmcmc.C129_l1_synthesis",
    "Pxmcmc.C129_l1_analysis",
    "Pxmcmc.C129_wavelet_prior",
    "Pxmcmc.C129_runs",
    "Pxmcmc.C129_lensing"
   ],
   "note": "No rate is given, and the stationary law is not the posterior that sig_d asks for (C128). np.random.randn is assumed to deliver independent standard normals for real and imaginary parts. C129_lensing starts from the constructors of the weak-lensing script with complex=True (the script itself passes complex=False); pyssht and pys2let enter through the hypotheses SshtAdjoint and Sound."
  },
  {
   "property": "C130",
   "status": "partial",
   "theorems": [
    "Pxmcmc.C130_myula_partial",
    "Pxmcmc.C130_skrock_partial",
    "Pxmcmc.C130_mala_partial",
    "Pxmcmc.C130_complex_data_refuted"
   ],
   "note": "False for complex data with complex=False, which is how the weak-lensing script calls the samplers: the chain becomes complex but only its real part is stored, so that the saved prior and misfit are not those of the saved sample, whatever the random numbers (C130_complex_data_refuted). Proved for all three samplers if the operators keep the dtype: complex=True (where preds holds the real parts, see C57), or real data, operators and start."
  },
  {
   "property": "C131",
   "status": "partial",
   "theorems": [
    "Pxmcmc.C131_myula",
    "Pxmcmc.C131_skrock_partial",
    "Pxmcmc.C131_silent",
    "Pxmcmc.C131_mala",
    "Pxmcmc.C131_skrock_refuted"
   ],
   "note": "False for SKROCK: during burn-in it prints counter 0 with the last row of the arrays, i.e. the zeros they were allocated with or the last sample of an earlier run (C131_skrock_refuted). Proved: MYULA and PxMALA as stated, SKROCK after burn-in, the number of lines for all three, silence for v<=0. The values are those passed to print, not its formatting."
  },
  {
   "property": "C132",
   "status": "proved",
   "theorems": [
    "Pxmcmc.C132_step",
    "Pxmcmc.C132_contract",
    "Pxmcmc.C132_converges",
    "Pxmcmc.C132_l1",
    "Pxmcmc.C132_complex_noise"
   ],
   "note": "The factor is sqrt(1-delta*(2-delta*(1/lmda+sqrt(2)*Lf))*c/sqrt(2)), where c and Lf bound the weighted operator. The stationary law is not the posterior that sig_d asks for (C128), and a real sampler stores the real part of the chain only (C130). The weak-lensing operator has a null space, so that C129 and not C132 applies to it."
  },
  {
   "property": "C133",
   "status": "proved",
   "theorems": [
    "Pxmcmc.C133_myula",
    "Pxmcmc.C133_mala",
    "Pxmcmc.C133_path_integrals",
    "Pxmcmc.C133_denoising"
   ],
   "note": "Exact arithmetic: in floating point two values may round to the same number. SKROCK is not covered. PxMALA saves accepted proposals only, so a rejection does not repeat a saved value. An interrupted run leaves zeros in the array and is not covered. C133_path_integrals and C133_denoising start from the constructors and include that the run returns."
  },
  {
   "property": "C134",
   "status": "proved",
   "theorems": [
    "Pxmcmc.C134_geometric",
    "Pxmcmc.C134_complex_data",
    "Pxmcmc.C134_l1_real",
    "Pxmcmc.C134_l1_complex",
    "Pxmcmc.C134_l1_complex_data",
    "Pxmcmc.C134_path_integrals",
    "Pxmcmc.C134_lensing"
   ],
   "note": "Convergence is to the stationary law of the chain, which depends on the step size and is not the posterior itself (C97, C120, C128). In the l1 case the rate depends on the start point and is not explicit. A real sampler stores real parts only: the events are about what is stored. SKROCK and PxMALA are not covered."
  },
  {
   "property": "C135",
   "status": "partial",
   "theorems": [
    "Pxmcmc.C135_rows_partial",
    "Pxmcmc.C135_preserved_partial",
    "Pxmcmc.C135_iff_partial",
    "Pxmcmc.C135_refuted"
   ],
   "note": "Violated: rows are saved on accepted iterations only. C135_refuted: one parameter that no path crosses, l1 prior, T = 0 (a random-walk proposal), every mu > 0, step size > 0, nburn, ngap at most 1: the Laplace law of parameter mu is invariant (in the sense of C53_invariance_refuted), yet for every run from it some saved row has another law; for mu = 1 that is the law of the default start. Proved: C135_rows_partial (the reweighted law is the one rows keep), C135_preserved_partial (the claim, if the acceptance probability does not change along iterations), C135_iff_partial (without thinning that condition is necessary and sufficient). Tuning runs are not covered."
  },
  {
   "property": "C136",
   "status": "partial",
   "theorems": [
    "Pxmcmc.C136_levels_partial",
    "Pxmcmc.C136_block_partial",
    "Pxmcmc.C136_refuted",
    "Pxmcmc.C136_trunc_partial",
    "Pxmcmc.C136_meridian_refuted",
    "Pxmcmc.C136_trunc_refuted"
   ],
   "note": "Violated: C136_meridian_refuted (nearest-pixel indices: for every L >= 298 no pixel on the zero meridian is scaled, though part of it lies in the block), C136_trunc_refuted (truncated indices: for every L >= 300 some pixel with its centre in the block keeps its level), C136_refuted (for every L >= 303 the same with any index functions whatever). Proved: C136_levels_partial (what is scaled, once, and the default), C136_block_partial (nearest-pixel indices) and C136_trunc_partial (truncated indices): levels are computed for every L >= 1, scaled pixels are within half a pixel (within one ring and no column) of the block, and no pixel of the block is missed for L <= 297 (nearest) and L <= 299 (truncated), so both thresholds are exact. The pyssht functions theta_to_index and phi_to_index are parameters; their source is not in the repository. The areas are the input of the levels; calc_pixel_areas itself is in C22."
  },
  {
   "property": "C137",
   "status": "partial",
   "theorems": [
    "Pxmcmc.C137_limit_partial",
    "Pxmcmc.C137_always_partial",
    "Pxmcmc.C137_unique_partial",
    "Pxmcmc.C137_refuted"
   ],
   "note": "Violated: rows are saved on accepted iterations only. C137_refuted: one parameter that no path crosses, l1 prior, T = 0, every mu > 0 and step size > 0: the Laplace law is invariant, yet there are a set and c > 0 such that, for every real start, nburn and ngap, the probability that the share of saved samples in the set is within c of its probability tends to 0. Proved: C137_limit_partial (the averages do converge in probability, to the means under the law reweighted with the acceptance probability), C137_unique_partial (at most one law is kept, so that \"the law its iterations keep\" is meaningful). Both assume standard normal noise, and for real samplers that drift and laws are real. That a kept law exists is a hypothesis. Tuning runs are not covered. C137_limit_partial gives convergence in probability, C137_always_partial with probability one."
  },
  {
   "property": "C138",
   "status": "partial",
   "theorems": [
    "Pxmcmc.C138_lensing_partial",
    "Pxmcmc.C138_lensing_refuted",
    "Pxmcmc.C138_phasevel_partial",
    "Pxmcmc.C138_phasevel_bandlimit_refuted",
    "Pxmcmc.C138_phasevel_data_refuted",
    "Pxmcmc.C138_topography_partial",
    "Pxmcmc.C138_topography_refuted"
   ],
   "note": "Violated: C138_lensing_refuted (no map under the fixed name: plot.py raises although the run succeeded; otherwise it compares with the shear of a run on that map), C138_phasevel_bandlimit_refuted (every L >= 2 other than 28 raises), C138_phasevel_data_refuted (a run with error 1/4 is printed as 0), C138_topography_refuted (an _mw_ input is compared with the ETOPO map). Proved, for runs given exactly the names in plot.py: C138_lensing_partial (both scripts use one shear map; the run weights it with sqrt(60)/0.37, the plot script does not), C138_phasevel_partial (the printed error is that of the predictions with the run's path matrix for the run's data), C138_topography_partial (the truth is the data, when no noise is added and alm2map_mw agrees with pyssht.inverse). Healpy, pyssht and pys2let are parameters; files are those of the model ExpFiles, and a map is assumed to read the same in both scripts."
  },
  {
   "property": "C139",
   "status": "partial",
   "theorems": [
    "Pxmcmc.C139_forward",
    "Pxmcmc.C139_l1",
    "Pxmcmc.C139_wavelets",
    "Pxmcmc.C139_myula",
    "Pxmcmc.C139_skrock_partial",
    "Pxmcmc.C139_path_integrals",
    "Pxmcmc.C139_skrock_refuted",
    "Pxmcmc.C139_pxmala_partial",
    "Pxmcmc.C139_pxmala_refuted"
   ],
   "note": "Violated: C139_skrock_refuted (two or more stages; for every c other than 1, every path matrix with an uncrossed pixel and a flat prior, no transition from any point leads to corresponding points), C139_pxmala_refuted (every c other than 1, one-parameter denoising with a flat prior, 0 < delta < 4 sigma^2: for some start and random numbers the sample after one iteration differs). Proved: C139_myula (whole runs, from the constructors on, including raised exceptions and progress lines), C139_skrock_partial (the same for one stage), C139_pxmala_partial (the proposals with their cached values), C139_forward, C139_l1, C139_wavelets (the constructed objects), C139_path_integrals (with every argument written out). The start point is an array; the default start is drawn in the same way in all units. The power-weighted prior is not covered."
  },
  {
   "property": "C140",
   "status": "proved",
   "theorems": [
    "Pxmcmc.C140_runs",
    "Pxmcmc.C140_results",
    "Pxmcmc.C140_path_integrals"
   ],
   "note": "C140_runs (whole runs from the constructors on, including exceptions and progress lines), C140_results (the recorded arrays), C140_path_integrals (the relisted PathIntegral object is such an operator). Exact arithmetic: in floating point the sums are taken in another order. The measurement operator must return one prediction per observation whenever it returns; covariance matrices are excluded because the constructor rejects them (C35)."
  },
  {
   "property": "C141",
   "status": "proved",
   "theorems": [
    "Pxmcmc.C141_runs",
    "Pxmcmc.C141_path_integrals"
   ],
   "note": "C141_runs (whole runs from the constructors on), C141_path_integrals (rows of zeros give such an operator). The printed progress lines are not compared. Only runs of the shorter list that return are considered; that the longer run then returns is part of the theorem. Exact arithmetic."
  },
  {
   "property": "C142",
   "status": "partial",
   "theorems": [
    "Pxmcmc.C142_forward",
    "Pxmcmc.C142_l1",
    "Pxmcmc.C142_wavelets",
    "Pxmcmc.C142_runs",
    "Pxmcmc.C142_skrock_partial",
    "Pxmcmc.C142_skrock_refuted"
   ],
   "note": "Violated: C142_skrock_refuted (two or more stages; every path matrix with an uncrossed pixel, every real data vector, a flat prior: no transition from opposite points with opposite random numbers leads to opposite points). Proved: C142_runs (MYULA and PxMALA, whole runs from the constructors on, including exceptions and progress lines), C142_skrock_partial (the same for one stage), C142_forward, C142_l1, C142_wavelets (the constructed objects). Exact arithmetic."
  },
  {
   "property": "C143",
   "status": "partial",
   "theorems": [
    "Pxmcmc.C143_myula_skrock_partial",
    "Pxmcmc.C143_l1",
    "Pxmcmc.C143_path_integrals",
    "Pxmcmc.C143_identity",
    "Pxmcmc.C143_pxmala_refuted"
   ],
   "note": "Violated: C143_pxmala_refuted (PxMALA accepts or rejects both proposals together; two denoising problems with one parameter each, where the first one alone rejects a proposal that it takes when the two are sampled together with the same numbers). Proved: C143_myula_skrock_partial (MYULA and SKROCK with any number of stages, whole runs from the constructors on; given that the joined run returns, the separate runs return and record the parts), C143_l1, C143_path_integrals, C143_identity (objects of the library that meet its hypotheses). The printed progress lines are not compared. Exact arithmetic."
  },
  {
   "property": "C144",
   "status": "partial",
   "theorems": [
    "Pxmcmc.C144_myula",
    "Pxmcmc.C144_skrock",
    "Pxmcmc.C144_pxmala_partial",
    "Pxmcmc.C144_tuned_refuted"
   ],
   "note": "Violated: C144_tuned_refuted (PxMALA with tune_delta=True adapts the step size with the number of the iteration, which starts again from 0; a one-parameter denoising problem, 3 samples at once against 1 and then 2). Proved: C144_myula, C144_skrock (any number of stages), C144_pxmala_partial (tune_delta=False, including the acceptance trace); that the long run returns is part of the theorems. The hypothesis KeepsDtype excludes complex=False with complex samples, where the saved sample is not the state (C57). Runs of the first sampler that return are considered; the printed progress lines are not compared. Exact arithmetic."
  },
  {
   "property": "C145",
   "status": "proved",
   "theorems": [
    "Pxmcmc.C145_covariance",
    "Pxmcmc.C145_forward",
    "Pxmcmc.C145_l1",
    "Pxmcmc.C145_wavelets",
    "Pxmcmc.C145_runs",
    "Pxmcmc.C145_path"
   ],
   "note": "C145_runs (whole runs of the three samplers from the constructor of the sampler on, including exceptions and progress lines), C145_forward, C145_covariance, C145_l1, C145_wavelets, C145_path (objects of the library that meet its hypotheses). Exact arithmetic: the order of floating-point summation is not represented. A 2-D sig_d raises in both orders (C35)."
  },
  {
   "property": "C146",
   "status": "proved",
   "theorems": [
    "Pxmcmc.C146_common_scale"
   ],
   "note": "C146_common_scale. pyssht is assumed exact at the bandlimits (PlotSsht.Exact, as in C75); a scale finer than 256 cannot be drawn at all (C75). Negative values, which oversampling can produce from non-negative ranges, are below the lower limit 0: the statement is about the upper one. cmap and the drawing itself are not modelled. For chains of the analysis setting the ranges cannot be computed (C108)."
  },
  {
   "property": "C147",
   "status": "proved",
   "theorems": [
    "Pxmcmc.C147_unknown",
    "Pxmcmc.C147_files",
    "Pxmcmc.C147_myula",
    "Pxmcmc.C147_skrock",
    "Pxmcmc.C147_pxmala"
   ],
   "note": "C147_unknown, C147_files (every name), C147_myula, C147_skrock, C147_pxmala. MYULA and SKROCK: operator, prior and gradient that accept every vector of the right length (Total, as in C41) and a file that can be written (C65, C117 treat the failures); PxMALA: for every run that ends (C54, C119). The set-up before the choice is the subject of C84; argparse is not modelled."
  },
  {
   "property": "C148",
   "status": "partial",
   "theorems": [
    "Pxmcmc.C148_covariance_partial",
    "Pxmcmc.C148_forward_partial",
    "Pxmcmc.C148_l1",
    "Pxmcmc.C148_wavelets",
    "Pxmcmc.C148_runs_partial",
    "Pxmcmc.C148_refuted",
    "Pxmcmc.C148_path"
   ],
   "note": "Violated: C148_refuted (complex data with real sig_d, as in the weak lensing script, forward.py:81-82). Proved for everything else: C148_covariance_partial, C148_forward_partial, C148_l1, C148_wavelets, C148_path, C148_runs_partial. For PxMALA C148_runs_partial needs that log u never equals the real part of a log acceptance ratio with an imaginary part: then numpy compares the imaginary parts (mcmc.py:245). The printed progress lines of PxMALA show complex numbers, which are conjugated. Exact arithmetic."
  },
  {
   "property": "C149",
   "status": "proved",
   "theorems": [
    "Pxmcmc.C149_integral",
    "Pxmcmc.C149_areas",
    "Pxmcmc.C149_snr",
    "Pxmcmc.C149_wavelets",
    "Pxmcmc.C149_power",
    "Pxmcmc.C149_lensing",
    "Pxmcmc.C149_runs"
   ],
   "note": "C149_integral, C149_areas, C149_snr, C149_wavelets, C149_power, C149_lensing, C149_runs. Shifts by whole pixels. C149_power: the bandlimits without the arguments dirs and spin (prior.py:131) are those of the tiling. C149_lensing: the four pyssht transforms turn shifts into phases (SshtTurns). C149_runs: forward operators that belong to the two meridians, as from C145_forward and C145_path; the wavelet transforms themselves are parameters. build_mask is tied to the galactic plane and not part of this."
  },
  {
   "property": "C150",
   "status": "partial",
   "theorems": [
    "Pxmcmc.C150_masked_partial",
    "Pxmcmc.C150_width_refuted",
    "Pxmcmc.C150_frame_refuted"
   ],
   "note": "Violated twice. C150_width_refuted: the bands are 2*size wide, not size as documented (utils.py:326). C150_frame_refuted: the first band is the equator of the map, the second the galactic plane for equatorial coordinates; whatever the coordinates of the map, some mask is not that of the ecliptic and the galactic plane, because those two planes enclose another angle. Proved: C150_masked_partial, a pixel is masked iff its direction is less than size degrees from the equator of the map or, in equatorial coordinates, from the galactic plane (the code converts the opposite point of the sky, which makes no difference). astropy is modelled as the rotation with the north galactic pole ngp."
  },
  {
   "property": "C151",
   "status": "partial",
   "theorems": [
    "Pxmcmc.C151_myula_partial",
    "Pxmcmc.C151_skrock_partial",
    "Pxmcmc.C151_prior_refuted",
    "Pxmcmc.C151_skrock_refuted",
    "Pxmcmc.C151_mala_refuted"
   ],
   "note": "Violated three times. C151_prior_refuted: recorded priors and log-posteriors differ, because L1.prior takes the norm of X itself in both settings (prior.py:35). C151_mala_refuted: for the same reason PxMALA accepts a proposal in one setting and rejects the same proposal in the other. C151_skrock_refuted: with two stages the recursion of SKROCK adds a constant to every entry, of the coefficients in one setting and of the pixels in the other. Proved: samples, predictions, misfits and number of iterations agree for MYULA (C151_myula_partial), and for SKROCK with one stage or with a transform that leaves the constant vector alone (C151_skrock_partial). Handles must not raise on arrays of the right length."
  },
  {
   "property": "C152",
   "status": "partial",
   "theorems": [
    "Pxmcmc.C152_defaults_partial",
    "Pxmcmc.C152_usage_partial",
    "Pxmcmc.C152_setting_refuted",
    "Pxmcmc.C152_burn_refuted",
    "Pxmcmc.C152_topo_burn_refuted",
    "Pxmcmc.C152_positional_refuted",
    "Pxmcmc.C152_refuted",
    "Pxmcmc.C152_rejects",
    "Pxmcmc.C152_forms",
    "Pxmcmc.C152_flags"
   ],
   "note": "Violated (C152_refuted). C152_setting_refuted: the documented default of --setting is 'myula', with which no operator can be built; it is synthesis. C152_burn_refuted: --burn is documented as 100 and is 1000 in phasevel/plot.py and weaklensing/plot.py, which raise for fewer samples. C152_topo_burn_refuted: help text and README of the topography example name different values. C152_positional_refuted: phasevel/main.py requires the two files for which it gives defaults. Proved: C152_defaults_partial for all other options with a documented default, C152_usage_partial. argparse is modelled without the word --; int(), float() and the recognition of negative numbers are parameters that read decimal numbers."
  },
  {
   "property": "C153",
   "status": "proved",
   "theorems": [
    "Pxmcmc.C153_real",
    "Pxmcmc.C153_path_integrals"
   ],
   "note": "No rate is given. np.random.randn is assumed to deliver independent standard normals; operator, frame, data and start are real. C153_path_integrals starts from the constructors for path integrals. The quantiles are those of the stationary law, not of the posterior."
  },
  {
   "property": "C154",
   "status": "proved",
   "theorems": [
    "Pxmcmc.C154_real",
    "Pxmcmc.C154_path_integrals"
   ],
   "note": "No rate is given. np.random.randn is assumed to deliver independent standard normals; operator, frame, data and start are real, and runs are quiet (verbosity 0). That the region misses the points of largest posterior is C64. C154_path_integrals starts from the constructors for path integrals; C154_real also covers the analysis setting, whose prior is the l1 norm of the parameters."
  },
  {
   "property": "C155",
   "status": "proved",
   "theorems": [
    "Pxmcmc.C155_myula",
    "Pxmcmc.C155_mala",
    "Pxmcmc.C155_skrock"
   ],
   "note": "Model/Calls.lean repeats the runs with a log of the calls; each theorem also states that without the log these are the runs of Model/Sampler.lean. Only calls that return are counted. That SKROCK needs more gradients than stages is C21."
  },
  {
   "property": "C156",
   "status": "partial",
   "theorems": [
    "Pxmcmc.C156_returns_partial",
    "Pxmcmc.C156_nparams_partial",
    "Pxmcmc.C156_unused_partial",
    "Pxmcmc.C156_measurement_partial",
    "Pxmcmc.C156_transform_refuted",
    "Pxmcmc.C156_refuted"
   ],
   "note": "Violated: the methods of the base class Transform are declared without an argument (transforms.py:11-33), so calling an inherited one raises TypeError instead of NotImplementedError (C156_refuted, C156_transform_refuted for every sampler). Proved: what a returning run needs (C156_returns_partial), what it does not use (C156_unused_partial), and NotImplementedError for measurements (C156_measurement_partial)."
  },
  {
   "property": "C157",
   "status": "proved",
   "theorems": [
    "Pxmcmc.C157_myula",
    "Pxmcmc.C157_skrock",
    "Pxmcmc.C157_mala"
   ],
   "note": "Model/RunHeap.lean repeats the runs with references into a store. Operators enter by the hypothesis Respects (same results as the operators of the value model, no write into an array that existed before the call); sharingOps_respects shows that returning the argument is allowed, inPlace_not_respects that in-place operators are excluded. The temporaries of numpy expressions are not represented."
  },
  {
   "property": "C158",
   "status": "proved",
   "theorems": [
    "Pxmcmc.C158_myula",
    "Pxmcmc.C158_skrock",
    "Pxmcmc.C158_mala",
    "Pxmcmc.C158_same"
   ],
   "note": "The generator is an arbitrary state machine (laplace.rvs draws from the same one). Runs that raise are not considered. Which draw enters which sample is C41, C42 and C49."
  },
  {
   "property": "C159",
   "status": "proved",
   "theorems": [
    "Pxmcmc.C159_decorrelation",
    "Pxmcmc.C159_gaussian"
   ],
   "note": "Covariances over a probability space on which the noise vectors are independent and identically distributed; exact arithmetic. SKROCK and PxMALA are not covered."
  },
  {
   "property": "C160",
   "status": "proved",
   "theorems": [
    "Pxmcmc.C160_rows",
    "Pxmcmc.C160_logpi",
    "Pxmcmc.C160_no_best",
    "Pxmcmc.C160_best",
    "Pxmcmc.C160_identity",
    "Pxmcmc.C160_spread",
    "Pxmcmc.C160_mala_rejects",
    "Pxmcmc.C160_mala_never",
    "Pxmcmc.C160_mala_complete",
    "Pxmcmc.C160_denoising",
    "Pxmcmc.C160_skrock_rows"
   ],
   "note": "NaN is a value that spreads through every arithmetic operation, apart from entries that a sparse matrix does not store; finite arithmetic is exact and infinities do not occur. Wavelet transforms are not covered. C160_mala_complete ties the PxMALA model with NaN to malaRun for complete data (without tuning)."
  },
  {
   "property": "C161",
   "status": "proved",
   "theorems": [
    "Pxmcmc.C161_rows",
    "Pxmcmc.C161_law",
    "Pxmcmc.C161_data",
    "Pxmcmc.C161_data_law",
    "Pxmcmc.C161_denoising",
    "Pxmcmc.C161_interval"
   ],
   "note": "Exact arithmetic; MYULA only (the accept/reject decision of PxMALA is discontinuous). The two runs use the same random numbers. C161_data needs the operators of both runs to be the same."
  },
  {
   "property": "C162",
   "status": "proved",
   "theorems": [
    "Pxmcmc.C162_step",
    "Pxmcmc.C162_rows",
    "Pxmcmc.C162_returns",
    "Pxmcmc.C162_apriori",
    "Pxmcmc.C162_linear",
    "Pxmcmc.C162_blind_grows"
   ],
   "note": "Relative rounding errors only: overflow, underflow and the rounding of the tracked values are not modelled. C162_linear assumes exact operators. The errors eta and tau of the operators and, in C162_rows and C162_linear, the size m are hypotheses on the computed samples; C162_apriori has no such hypothesis but assumes exact operators and bounded noise."
  },
  {
   "property": "C163",
   "status": "proved",
   "theorems": [
    "Pxmcmc.C163_soft_entry",
    "Pxmcmc.C163_soft",
    "Pxmcmc.C163_random_start",
    "Pxmcmc.C163_denoising",
    "Pxmcmc.C163_no_rounding",
    "Pxmcmc.C163_switch",
    "Pxmcmc.C163_probability",
    "Pxmcmc.C163_summaries"
   ],
   "note": "Relative rounding errors only: overflow, underflow and the rounding of the tracked values are not modelled. The stored inverse covariance matrix is the same in both runs, so the rounding in building it is not covered. The identity operators and products with zero entries of diagonal matrices are exact."
  },
  {
   "property": "C164",
   "status": "proved",
   "theorems": [
    "Pxmcmc.C164_limits",
    "Pxmcmc.C164_denoising"
   ],
   "note": "Same rounding model as C163: relative errors only; overflow, underflow and the rounding of the tracked values are not modelled, and the averages over the rows are taken exactly. The precision u0 depends on nburn, ngap and nsamples. C164_limits: widths and averages are computed exactly from the rounded rows; the limits are those of the stationary law for the given lmda and delta, not of the posterior."
  }
 ]
}