{
 "claims": [
  {
   "property": "C01",
   "status": "proved",
   "theorems": [
    "Verif.C01_feas_accepted",
    "Verif.C01_feas_point",
    "Verif.C01_C03_recording_transparent"
   ],
   "note": "Generic in oracle, space and world; call histories observed through a recording wrapper proved transparent."
  },
  {
   "property": "C02",
   "status": "proved",
   "theorems": [
    "Verif.C02_feas_accounting",
    "Verif.C02_feas_empty_range",
    "Verif.C02_feas_total"
   ],
   "note": "max_it <= 0 raises UnboundLocalError (C02_feas_empty_range)."
  },
  {
   "property": "C03",
   "status": "proved",
   "theorems": [
    "Verif.C03_feas_status",
    "Verif.C01_C03_recording_transparent"
   ],
   "note": "An exhausted run reports status success with feasible=False."
  },
  {
   "property": "C04",
   "status": "proved",
   "theorems": [
    "Verif.C04_feas_certificate"
   ],
   "note": "For every space satisfying SoundSpace; instantiated with ell1d (C26_ell1d_sound) and ell."
  },
  {
   "property": "C05",
   "status": "proved",
   "theorems": [
    "Verif.C05_dc_last_improvement",
    "Verif.C05_dc_accounting",
    "Verif.C05_dc_status",
    "Verif.C05_dc_empty_range",
    "Verif.C05_recording_transparent"
   ],
   "note": "feasible is computed as t != t_orig; the theorems state that and its relation to improvements."
  },
  {
   "property": "C06",
   "status": "proved",
   "theorems": [
    "Verif.C06_dc_monotone"
   ],
   "note": ""
  },
  {
   "property": "C07",
   "status": "proved",
   "theorems": [
    "Verif.C07_dc_certificate"
   ],
   "note": "For every sound space; instantiated with ell1d and ell."
  },
  {
   "property": "C08",
   "status": "proved",
   "theorems": [
    "Verif.C08_dc_ell_xbest_is_final_centre",
    "Verif.C08_dc_ell_xbest_wrong"
   ],
   "note": "The claim as stated records a defect: x_best always is the final centre (universal theorem) and need not attain the returned value (counterexample run)."
  },
  {
   "property": "C09",
   "status": "proved",
   "theorems": [
    "Verif.C09_q_retry_protocol"
   ],
   "note": ""
  },
  {
   "property": "C10",
   "status": "proved",
   "theorems": [
    "Verif.C10_q_results",
    "Verif.C10_q_empty_range",
    "Verif.C10_recording_transparent"
   ],
   "note": ""
  },
  {
   "property": "C11",
   "status": "proved",
   "theorems": [
    "Verif.C11_bsearch_answer",
    "Verif.C11_bsearch_bracket",
    "Verif.C11_bsearch_monotone",
    "Verif.C11_C13_recording_transparent"
   ],
   "note": ""
  },
  {
   "property": "C12",
   "status": "proved",
   "theorems": [
    "Verif.C12_bsearch_int"
   ],
   "note": "T=int branch; int() modelled as truncation of a nonnegative or negative field element."
  },
  {
   "property": "C13",
   "status": "proved",
   "theorems": [
    "Verif.C13_bsearch_count",
    "Verif.C13_bsearch_terminates",
    "Verif.C13_bsearch_empty_range",
    "Verif.C11_C13_recording_transparent"
   ],
   "note": "The count is the number of evaluations when the tolerance stops the loop and one less on exhaustion."
  },
  {
   "property": "C14",
   "status": "proved",
   "theorems": [
    "Verif.C14_adaptor_ell1d",
    "Verif.C14_adaptor_ell",
    "Verif.C14_adaptor_ell_wrong"
   ],
   "note": "Positive for ell1d; for ell the theorem says exactly what moves, and a run shows a failed probe moving the centre."
  },
  {
   "property": "C15",
   "status": "proved",
   "theorems": [
    "Verif.C15_problem_history",
    "Verif.C15_problem_runs",
    "Verif.C15_problem_stale"
   ],
   "note": "Every history of solve calls on a fresh Problem; includes the stale value after an infeasible solve."
  },
  {
   "property": "C16",
   "status": "proved",
   "theorems": [
    "Verif.C16_ell_deep_sound",
    "Verif.C16_ell_region_sound",
    "Verif.C16_C17_C18_ell_soundSpace"
   ],
   "note": "Points of the ellipsoid in support-function form (equal to the docstring region for positive definite Q, Ell.pts_eq_region); exact real arithmetic."
  },
  {
   "property": "C17",
   "status": "proved",
   "theorems": [
    "Verif.C17_ell_parallel_sound",
    "Verif.C16_C17_C18_ell_soundSpace"
   ],
   "note": "Real arithmetic; holds with use_parallel_cut on or off."
  },
  {
   "property": "C18",
   "status": "proved",
   "theorems": [
    "Verif.C18_ell_nosoln",
    "Verif.C18_ell_deep_nosoln_iff",
    "Verif.C16_C17_C18_ell_soundSpace"
   ],
   "note": ""
  },
  {
   "property": "C19",
   "status": "proved",
   "theorems": [
    "Verif.C19_ell_reject_unchanged",
    "Verif.C19_ell_statuses",
    "Verif.C19_ell_deep_status"
   ],
   "note": ""
  },
  {
   "property": "C20",
   "status": "proved",
   "theorems": [
    "Verif.C20_ell_wf",
    "Verif.C20_ell_proper",
    "Verif.C20_ell_sigma_delta",
    "Verif.C20_ell_deep_fails_iff",
    "Verif.C20_ell_parallel_fails_iff",
    "Verif.C20_ell_tsq_nonneg",
    "Verif.C20_ell_no_error",
    "Verif.C20_ell_history"
   ],
   "note": "Positive definiteness is kept exactly for cuts that are not tangent or flat; failures (ZeroDivision at beta = -tau/n and thin symmetric slabs) characterised by iff."
  },
  {
   "property": "C21",
   "status": "proved",
   "theorems": [
    "Verif.C21_ell_volume_le",
    "Verif.C21_ell_volume_lt",
    "Verif.C21_ell_volume_rate"
   ],
   "note": "Lebesgue volume; strict except for parallel cuts with n*b0*b1 = -tsq, rate exp(-1/(2(n+1))) for beta >= 0."
  },
  {
   "property": "C22",
   "status": "proved",
   "theorems": [
    "Verif.C22_ell_defer_step",
    "Verif.C22_ell_defer_run",
    "Verif.C22_ell_flag_kept"
   ],
   "note": "Over all runs of updates; exact arithmetic."
  },
  {
   "property": "C23",
   "status": "proved",
   "theorems": [
    "Verif.C23_ell_tsq",
    "Verif.C23_ell1d_tsq"
   ],
   "note": ""
  },
  {
   "property": "C24",
   "status": "proved",
   "theorems": [
    "Verif.C24_ell_init_fails",
    "Verif.C24_ell_init_const",
    "Verif.C24_ell_init_ball",
    "Verif.C24_ell_init_diag",
    "Verif.C24_ell_copy"
   ],
   "note": "Value level; sharing of the centre array by copy() is C14."
  },
  {
   "property": "C25",
   "status": "proved",
   "theorems": [
    "Verif.C25_feas_ell_converges",
    "Verif.C25_feas_ell_terminates",
    "Verif.C25_feas_ell_iterations"
   ],
   "note": "Bound 2n(n+1)ln(R/r)+1 rounds for oracles whose cuts keep a ball of radius r; exact arithmetic."
  },
  {
   "property": "C26",
   "status": "proved",
   "theorems": [
    "Verif.C26_ell1d_total",
    "Verif.C26_ell1d_exact",
    "Verif.C26_ell1d_zero_cut_counterexample",
    "Verif.C26_ell1d_sound"
   ],
   "note": "True for every cut except (0,0), for which a counterexample is proved."
  },
  {
   "property": "C27",
   "status": "proved",
   "theorems": [
    "Verif.C27_ell1d_history",
    "Verif.C27_ell1d_copy",
    "Verif.C27_ell1d_init"
   ],
   "note": ""
  },
  {
   "property": "C28",
   "status": "proved",
   "theorems": [
    "Verif.C28_ell1d_halves",
    "Verif.C28_feas_ell1d"
   ],
   "note": ""
  },
  {
   "property": "C29",
   "status": "proved",
   "theorems": [
    "Verif.C29_factor_iff",
    "Verif.C29_factorize_iff",
    "Verif.C29_factorize_small",
    "Verif.C29_factorize_posDef"
   ],
   "note": "Exact arithmetic over any linearly ordered field; factorize also as Mathlib Matrix.PosDef."
  },
  {
   "property": "C30",
   "status": "proved",
   "theorems": [
    "Verif.C30_witness",
    "Verif.C30_witness_raises"
   ],
   "note": ""
  },
  {
   "property": "C31",
   "status": "proved",
   "theorems": [
    "Verif.C31_sqrt",
    "Verif.C31_sqrt_raises",
    "Verif.C31_sqrt_semidef_wrong",
    "Verif.C31_sqrt_total",
    "Verif.C31_sqrt_after_exception"
   ],
   "note": "With a counterexample for allow_semidefinite=True."
  },
  {
   "property": "C32",
   "status": "proved",
   "theorems": [
    "Verif.C32_reach_range",
    "Verif.C32_history",
    "Verif.C32_sqrt_history",
    "Verif.C32_sqrt_semidef_stale"
   ],
   "note": "sqrt history independence with the flag off; a stale-buffer run with the flag on."
  },
  {
   "property": "C33",
   "status": "proved",
   "theorems": [
    "Verif.C33_access",
    "Verif.C33_access_order",
    "Verif.C33_errors"
   ],
   "note": "getA is any stateful function that may raise."
  },
  {
   "property": "C34",
   "status": "proved",
   "theorems": [
    "Verif.C34_semidef_iff",
    "Verif.C34_semidef_false",
    "Verif.C34_semidef_accepts_indefinite"
   ],
   "note": "Exact recursive characterisation, soundness of False, and the indefinite counterexample."
  },
  {
   "property": "C35",
   "status": "proved",
   "theorems": [
    "Verif.C35_lmi"
   ],
   "note": "Includes strictness and a quantitative margin for points whose matrix is at least lam."
  },
  {
   "property": "C36",
   "status": "proved",
   "theorems": [
    "Verif.C36_lmi0"
   ],
   "note": ""
  },
  {
   "property": "C37",
   "status": "proved",
   "theorems": [
    "Verif.C37_lmi_old_agrees"
   ],
   "note": ""
  },
  {
   "property": "C38",
   "status": "proved",
   "theorems": [
    "Verif.C38_qmi",
    "Verif.C38_qmi_shapes",
    "Verif.C38_qmi_nonsymmetric_wrong"
   ],
   "note": "Symmetric F_k; counterexample for non-symmetric F_k, ValueError for rectangular ones."
  },
  {
   "property": "C39",
   "status": "proved",
   "theorems": [
    "Verif.C39_lsq"
   ],
   "note": ""
  },
  {
   "property": "C40",
   "status": "proved",
   "theorems": [
    "Verif.C40_mle"
   ],
   "note": "Exact real arithmetic; data given as Mathlib matrices; np.linalg.inv is the matrix inverse."
  },
  {
   "property": "C41",
   "status": "proved",
   "theorems": [
    "Verif.C41_repoFinder",
    "Verif.C41_network"
   ],
   "note": "For every finder meeting FinderOK; C41_repoFinder shows the finder in neg_cycle.tpy meets it."
  },
  {
   "property": "C42",
   "status": "proved",
   "theorems": [
    "Verif.C42_cycle_ratio_oracle",
    "Verif.C42_ratio_meaning",
    "Verif.C42_cycle_ratio_end_to_end"
   ],
   "note": "Oracle, meaning (x is at most every cycle ratio) and the end-to-end run on ell1d."
  },
  {
   "property": "C43",
   "status": "proved",
   "theorems": [
    "Verif.C43_optscaling_oracle",
    "Verif.C43_optscaling_selfloop",
    "Verif.C43_scaling_meaning"
   ],
   "note": "Constraints are those the code enforces: i<j entries only, see C43_scaling_meaning; self-loops raise."
  },
  {
   "property": "C44",
   "status": "proved",
   "theorems": [
    "Verif.C44_profit_cut_valid",
    "Verif.C44_profit_zero_gradient"
   ],
   "note": "Exact real arithmetic; zero-gradient corner case characterised."
  },
  {
   "property": "C45",
   "status": "proved",
   "theorems": [
    "Verif.C45_profit_value"
   ],
   "note": ""
  },
  {
   "property": "C46",
   "status": "proved",
   "theorems": [
    "Verif.C46_profit_rb"
   ],
   "note": "Over all histories of calls."
  },
  {
   "property": "C47",
   "status": "proved",
   "theorems": [
    "Verif.C47_profit_q_point",
    "Verif.C47_profit_q_cut",
    "Verif.C47_profit_q_ties",
    "Verif.C47_profit_q_cut_wrong"
   ],
   "note": "Exact shift, the condition under which the cut is valid, and the counterexample."
  },
  {
   "property": "C48",
   "status": "proved",
   "theorems": [
    "Verif.C48_lowpass_value"
   ],
   "note": ""
  },
  {
   "property": "C49",
   "status": "proved",
   "theorems": [
    "Verif.C49_lowpass_cut"
   ],
   "note": ""
  },
  {
   "property": "C50",
   "status": "proved",
   "theorems": [
    "Verif.C50_lowpass_round_robin",
    "Verif.C50_lowpass_fair",
    "Verif.C50_cycDist_lt",
    "Verif.C50_stale_position"
   ],
   "note": "Over all histories of calls; includes a fairness statement. C50_stale_position: the position survives an assignment of a smaller matrix, and the call then raises IndexError."
  },
  {
   "property": "C51",
   "status": "proved",
   "theorems": [
    "Verif.C51_csdlowpass_point",
    "Verif.C51_csdlowpass_cut",
    "Verif.C51_csdlowpass_cut_wrong"
   ],
   "note": "spectral_fact is an arbitrary function; exact arithmetic; the cut defect is proved as C51_csdlowpass_cut_wrong."
  },
  {
   "property": "C52",
   "status": "proved",
   "theorems": [
    "Verif.C52_inverse_spectral_fact",
    "Verif.C52_power_spectrum",
    "Verif.C52_power_spectrum_norm"
   ],
   "note": ""
  },
  {
   "property": "C53",
   "status": "proved",
   "theorems": [
    "Verif.C53_mono_oracle",
    "Verif.C53_mono_decreasing2",
    "Verif.C53_mono_wrapper_sound"
   ],
   "note": "Exact arithmetic; any wrapped oracle, stateful and raising included."
  },
  {
   "property": "C54",
   "status": "proved",
   "theorems": [
    "Verif.C54_distance_matrix",
    "Verif.C54_poly_matrix",
    "Verif.C54_poly_matrix_zero"
   ],
   "note": "Distances are those of Mathlib EuclideanSpace; exact sqrt."
  },
  {
   "property": "C55",
   "status": "proved",
   "theorems": [
    "Verif.C55_corr_poly",
    "Verif.C55_corr_bspline"
   ],
   "note": "The solver and oracle are arbitrary; for splines, evaluation is assumed linear in the coefficients (scipy is outside the model)."
  },
  {
   "property": "C56",
   "status": "proved",
   "theorems": [
    "Verif.C56_round_trip"
   ],
   "note": "Over any Archimedean linearly ordered field with floor; exact arithmetic."
  },
  {
   "property": "C57",
   "status": "proved",
   "theorems": [
    "Verif.C57_to_csd_error"
   ],
   "note": "ceil(log2(x)) is taken in its exact meaning; float rounding of log2 is not modelled."
  },
  {
   "property": "C58",
   "status": "proved",
   "theorems": [
    "Verif.C58_canonical_iff"
   ],
   "note": "Exact characterisation; the expected unconditional claim is false."
  },
  {
   "property": "C59",
   "status": "proved",
   "theorems": [
    "Verif.C59_string_round_trip"
   ],
   "note": ""
  },
  {
   "property": "C60",
   "status": "proved",
   "theorems": [
    "Verif.C60_to_decimal_value",
    "Verif.C60_to_decimal_rejects"
   ],
   "note": ""
  },
  {
   "property": "C61",
   "status": "proved",
   "theorems": [
    "Verif.C61_C62_csdfixed",
    "Verif.C61_csdfixed_no_budget"
   ],
   "note": ""
  },
  {
   "property": "C62",
   "status": "proved",
   "theorems": [
    "Verif.C61_C62_csdfixed"
   ],
   "note": "1e-100 is the loop threshold of the code."
  },
  {
   "property": "C63",
   "status": "proved",
   "theorems": [
    "Verif.C63_csdfixed_terminates"
   ],
   "note": "With an explicit bound on the number of rounds."
  },
  {
   "property": "C64",
   "status": "proved",
   "theorems": [
    "Verif.C64_canonical_minimal",
    "Verif.C64_to_csd_minimal",
    "Verif.C64_to_csd_unique"
   ],
   "note": "Minimality over strings with any number of integer and fractional digits."
  },
  {
   "property": "C65",
   "status": "proved",
   "theorems": [
    "Verif.C65_is_proper_csd",
    "Verif.C65_cycle_bits",
    "Verif.C65_cycle_bits_range"
   ],
   "note": "Recursion over the global buffer is modelled with its state."
  },
  {
   "property": "C66",
   "status": "proved",
   "theorems": [
    "Verif.C66_fib",
    "Verif.C66_fib_assert"
   ],
   "note": ""
  },
  {
   "property": "C67",
   "status": "proved",
   "theorems": [
    "Verif.C67_neg_cycle",
    "Verif.C67_neg_cycle_iff",
    "Verif.C67_is_negative"
   ],
   "note": "The number of rounds is at most max(#nodes,1); exact arithmetic."
  },
  {
   "property": "C68",
   "status": "proved",
   "theorems": [
    "Verif.C68_q_certificate"
   ],
   "note": ""
  },
  {
   "property": "C69",
   "status": "proved",
   "theorems": [
    "Verif.C69_feas_ell_refines",
    "Verif.C69_dc_ell_refines"
   ],
   "note": "Simulation between the heap model and the value model."
  },
  {
   "property": "C70",
   "status": "proved",
   "theorems": [
    "Verif.C70_feas_ell_verdict"
   ],
   "note": "Margin stated as FirmCut: the cut varies by at least sqrt(tol) between centre and point."
  },
  {
   "property": "C71",
   "status": "proved",
   "theorems": [
    "Verif.C71_dc_ell_verdict"
   ],
   "note": "The family of point sets K t is a parameter; instances in C74, C75."
  },
  {
   "property": "C72",
   "status": "proved",
   "theorems": [
    "Verif.C72_dc_ell_converges"
   ],
   "note": "Runs that return; exceptions raised by ell after convergence are not excluded."
  },
  {
   "property": "C73",
   "status": "proved",
   "theorems": [
    "Verif.C73_lmi_feas_converges",
    "Verif.C73_lmi_feas_verdict"
   ],
   "note": "Verdict and iteration bound; real arithmetic."
  },
  {
   "property": "C74",
   "status": "proved",
   "theorems": [
    "Verif.C74_profit_verdict",
    "Verif.C74_profit_converges"
   ],
   "note": "Verdict and iteration bound; real arithmetic."
  },
  {
   "property": "C75",
   "status": "proved",
   "theorems": [
    "Verif.C75_lsq_verdict",
    "Verif.C75_lsq_converges"
   ],
   "note": "Verdict and iteration bound; real arithmetic; symmetric F_k (C38 shows the oracle is wrong otherwise)."
  },
  {
   "property": "C76",
   "status": "proved",
   "theorems": [
    "Verif.C76_tol_scale_dependent"
   ],
   "note": "Negative result: shows that smallenough is not a statement about the size of the region."
  },
  {
   "property": "C77",
   "status": "proved",
   "theorems": [
    "Verif.C77_spectral_fact_magnitude",
    "Verif.C77_spectral_fact_empty",
    "Verif.C77_spectral_fact_real",
    "Verif.C77_spectral_fact_round_trip",
    "Verif.C77_spectral_fact_exact_two"
   ],
   "note": "Exact real and complex arithmetic; np.fft by its definition."
  },
  {
   "property": "C78",
   "status": "proved",
   "theorems": [
    "Verif.C78_spectral_fact_min_phase",
    "Verif.C78_spectral_fact_min_phase_neg"
   ],
   "note": "Exact arithmetic; explicit bound on the aliasing error of the 100-fold oversampled Hilbert transform."
  },
  {
   "property": "C79",
   "status": "proved",
   "theorems": [
    "Verif.LowDiscr.C79_vdc",
    "Verif.LowDiscr.C79_vdc_diverges",
    "Verif.LowDiscr.C79_vdc_base_zero",
    "Verif.LowDiscr.C79_vdc_range",
    "Verif.LowDiscr.C79_vdc_equidistributed",
    "Verif.LowDiscr.C79_vdc_injective"
   ],
   "note": "Exact rationals; termination included."
  },
  {
   "property": "C80",
   "status": "proved",
   "theorems": [
    "Verif.LowDiscr.C80_halton_reseed",
    "Verif.LowDiscr.C80_halton_equidistributed",
    "Verif.LowDiscr.C80_halton_init"
   ],
   "note": "Exact rationals."
  },
  {
   "property": "C81",
   "status": "proved",
   "theorems": [
    "Verif.LowDiscr.C81_circle",
    "Verif.LowDiscr.C81_sphere",
    "Verif.LowDiscr.C81_sphere3_hopf",
    "Verif.LowDiscr.C81_circle_bij",
    "Verif.LowDiscr.C81_sphere_onto",
    "Verif.LowDiscr.C81_sphere3_hopf_onto"
   ],
   "note": "Real arithmetic."
  },
  {
   "property": "C82",
   "status": "proved",
   "theorems": [
    "Verif.C82_lmi2"
   ],
   "note": "Real arithmetic (any ordered field)."
  },
  {
   "property": "C83",
   "status": "proved",
   "theorems": [
    "Verif.C83_lmi3"
   ],
   "note": "Real arithmetic (any ordered field)."
  },
  {
   "property": "C84",
   "status": "proved",
   "theorems": [
    "Verif.C84_cholutil",
    "Verif.C84_cholutil_sym_quad"
   ],
   "note": "Real arithmetic."
  },
  {
   "property": "C85",
   "status": "proved",
   "theorems": [
    "Verif.C85_qmi_c"
   ],
   "note": "Includes the negative result that the oracle can never accept."
  },
  {
   "property": "C86",
   "status": "proved",
   "theorems": [
    "Verif.C86_spectral_fact_positive"
   ],
   "note": "Exact arithmetic; existence of the spectral factor proved, not assumed."
  },
  {
   "property": "C87",
   "status": "proved",
   "theorems": [
    "Verif.C87_create_2d_sites",
    "Verif.C87_sites_equidistributed"
   ],
   "note": "Exact rationals scaled to reals; the generator is the in-repository Halton of low_discr_seq (pylds itself is external)."
  },
  {
   "property": "C88",
   "status": "proved",
   "theorems": [
    "Verif.C88_kernel",
    "Verif.C88_kernel_pd",
    "Verif.C88_isotropic",
    "Verif.C88_expectation",
    "Verif.C88_chol_ext_contract"
   ],
   "note": "np.linalg.cholesky by contract (shown to be met by the repository chol_ext); randn by its second moments; N = 0 (nan) excluded."
  },
  {
   "property": "C89",
   "status": "proved",
   "theorems": [
    "Verif.C89_lowpass_verdict",
    "Verif.C89_lowpass_converges"
   ],
   "note": "Exact arithmetic. The point is the centre when it was recorded; the reference the code returns is overwritten later (C08)."
  },
  {
   "property": "C90",
   "status": "proved",
   "theorems": [
    "Verif.C90_between"
   ],
   "note": "Bernstein inequality proved through the Riesz interpolation formula."
  },
  {
   "property": "C91",
   "status": "proved",
   "theorems": [
    "Verif.C91_create_lowpass_case",
    "Verif.C91_create_lowpass_case_zero",
    "Verif.C91_all_frequencies",
    "Verif.C91_lowpass_design",
    "Verif.C91_grid_not_enough"
   ],
   "note": "Exact arithmetic; includes the negative result that grid nonnegativity does not give nonnegativity."
  },
  {
   "property": "C92",
   "status": "proved",
   "theorems": [
    "Verif.C92_room_verdict",
    "Verif.C92_convex_verdict",
    "Verif.C92_room_complexity",
    "Verif.C92_convex_complexity"
   ],
   "note": "Exact arithmetic; statement about every run that returns, plus existence of the improving call."
  },
  {
   "property": "C93",
   "status": "proved",
   "theorems": [
    "Verif.C93_fir_oracle",
    "Verif.C93_fir_empty",
    "Verif.C93_fir_solve",
    "Verif.C93_fir_accuracy"
   ],
   "note": "Exact arithmetic; the oracle lives in the test suite; the returned filter is the centre when recorded (C08)."
  },
  {
   "property": "C94",
   "status": "proved",
   "theorems": [
    "Verif.C94_optscaling_verdict",
    "Verif.C94_optscaling_converges"
   ],
   "note": "Exact arithmetic; digraphx cycle finder by contract, met by the modelled finder."
  },
  {
   "property": "C95",
   "status": "proved",
   "theorems": [
    "Verif.C95_mle_convex",
    "Verif.C95_mle_verdict",
    "Verif.C95_mle_accuracy"
   ],
   "note": "Exact arithmetic. The returned point is the centre when recorded (C08)."
  },
  {
   "property": "C96",
   "status": "proved",
   "theorems": [
    "Verif.C96_probe_accepts",
    "Verif.C96_probe_verdict",
    "Verif.C96_search",
    "Verif.C96_qmi_levelOracle",
    "Verif.C96_lsq_corr_search",
    "Verif.C96_xbest_wrong"
   ],
   "note": "Exact arithmetic; statements about every run that returns, acceptance also proves the probe raises nothing. x_best can be wrong after a rejected last probe (counterexample proved)."
  },
  {
   "property": "C97",
   "status": "proved",
   "theorems": [
    "Verif.Csdigit.C97_csdigit",
    "Verif.Csdigit.C97_default"
   ],
   "note": "Exact arithmetic, range and resolution nonnegative; dec2bin/bin2dec/findstr/diff modelled on character lists. Numbers n = 2^(range+res) pass the size check but overflow."
  },
  {
   "property": "C98",
   "status": "proved",
   "theorems": [
    "Verif.C98_quasi_verdict",
    "Verif.C98_quasi_complexity",
    "Verif.C98_opt",
    "Verif.C98_quasi1_sound",
    "Verif.C98_quasi2_sound",
    "Verif.C98_quasi1_accuracy",
    "Verif.C98_quasi2_accuracy",
    "Verif.C98_test_quasicvx",
    "Verif.C98_test_quasicvx2",
    "Verif.C98_quasi1_negative_level"
   ],
   "note": "Exact arithmetic, real exp and log. The rounded optimum in the tests (0.42888194, -0.42888194) is matched to 5e-4 by the default options bound."
  },
  {
   "property": "C99",
   "status": "proved",
   "theorems": [
    "Verif.C99_dc_total_levels",
    "Verif.C99_dc_total",
    "Verif.C99_feas_total",
    "Verif.C99_tangent_raises",
    "Verif.C99_quasi_total"
   ],
   "note": "Exact arithmetic; with numpy scalars the division by zero is a RuntimeWarning and nan instead of an exception."
  },
  {
   "property": "C100",
   "status": "proved",
   "theorems": [
    "Verif.C100_example2_feasible",
    "Verif.C100_example2_infeasible",
    "Verif.C100_example1_sound",
    "Verif.C100_example1_infeasible2",
    "Verif.C100_example1_accuracy",
    "Verif.C100_example1_feasible",
    "Verif.C100_example1_infeasible1",
    "Verif.C100_example1_xbest"
   ],
   "note": "Exact arithmetic. The oracle of test_example1 always returns a level, so the driver records every centre (counterexample proved)."
  },
  {
   "property": "C101",
   "status": "proved",
   "theorems": [
    "Verif.C101_same_run",
    "Verif.C101_verdict",
    "Verif.C101_accuracy",
    "Verif.C101_total",
    "Verif.C101_test_lmi",
    "Verif.C101_test_total"
   ],
   "note": "Exact arithmetic. The iteration count 113 asserted by the benchmark is a property of one floating point run and is not claimed; equality of the counts of both oracle classes is proved for all data."
  },
  {
   "property": "C102",
   "status": "proved",
   "theorems": [
    "Verif.C102_cycle_ratio_accuracy",
    "Verif.C102_ratio1",
    "Verif.C102_ratio2",
    "Verif.C102_test_cycle_ratio",
    "Verif.C102_test_cycle_ratio_timing"
   ],
   "note": "Exact arithmetic in any ordered field (the tests use Fraction costs with a float interval); digraphx finder by contract, met by the modelled finder."
  },
  {
   "property": "C103",
   "status": "proved",
   "theorems": [
    "Verif.C103_optscaling_start",
    "Verif.C103_optscaling_total",
    "Verif.C103_value_nonneg",
    "Verif.C103_disc_misses"
   ],
   "note": "Exact arithmetic; digraphx finder by contract. The initial disc of the test formula can miss every optimum (counterexample proved)."
  },
  {
   "property": "C104",
   "status": "proved",
   "theorems": [
    "Verif.C104_quasi_beats",
    "Verif.C104_rb_oracle",
    "Verif.C104_profit_oracle",
    "Verif.C104_rb_accuracy",
    "Verif.C104_profit_accuracy",
    "Verif.C104_rb_total",
    "Verif.C104_profit_total",
    "Verif.C104_test_profit",
    "Verif.C104_test_profit_rb",
    "Verif.C104_test_profit_total",
    "Verif.C104_test_profit_rb_total"
   ],
   "note": "Exact arithmetic, real exp and log. The asserted iteration counts (37, 42) are properties of one floating point run and are not claimed."
  },
  {
   "property": "C105",
   "status": "proved",
   "theorems": [
    "Verif.C105_q_verdict",
    "Verif.C105_test_profit_q",
    "Verif.C105_q_run_wrong"
   ],
   "note": "Exact arithmetic. The negative result is a consequence of the wrong sign of the shift (C47)."
  },
  {
   "property": "C106",
   "status": "proved",
   "theorems": [
    "Verif.C106_update_errors",
    "Verif.C106_update",
    "Verif.C106_dc",
    "Verif.C106_feas",
    "Verif.C106_q",
    "Verif.C106_lowpass",
    "Verif.C106_lowpass_perfect_raises"
   ],
   "note": "Exact arithmetic.  Extends C99 from deep cuts to all cuts."
  },
  {
   "property": "C107",
   "status": "proved",
   "theorems": [
    "Verif.C107_csd_verdict",
    "Verif.C107_csd_returns",
    "Verif.C107_test_csdlowpass",
    "Verif.C107_run_lowpass_returns",
    "Verif.C107_example"
   ],
   "note": "Exact arithmetic; spectral_fact is a parameter, so the statement holds for any factorisation, also an inexact one.  That the run succeeds on the test data is a numerical fact that is not claimed (and the cut is wrong, C51)."
  },
  {
   "property": "C108",
   "status": "proved",
   "theorems": [
    "Verif.C108_nyquist_bound",
    "Verif.C108_optimum",
    "Verif.C108_fir_verdict",
    "Verif.C108_test_firfilter",
    "Verif.C108_fir_returns",
    "Verif.C108_optimal_start_raises"
   ],
   "note": "Exact arithmetic.  That the run ends with status optimal within 208 iterations is a numerical fact that is not claimed."
  },
  {
   "property": "C109",
   "status": "proved",
   "theorems": [
    "Verif.C109_same_search",
    "Verif.C109_mle_raises",
    "Verif.C109_few_coefficients",
    "Verif.C109_mle_corr_poly",
    "Verif.C109_mle_returned_infeasible",
    "Verif.C109_lsq_corr_poly2",
    "Verif.C109_lsq_corr_poly"
   ],
   "note": "Three drivers of tests/test_corr_fn.py from the sites to the coefficients. `C109_same_search`: reference versus copy. `C109_mle_corr_poly`, `C109_lsq_corr_poly2` for the copied best point; `C109_mle_returned_infeasible` shows the code as it is violating the constraint with flag True. `C109_lsq_corr_poly` for the bisection, code as it is."
  },
  {
   "property": "C110",
   "status": "proved",
   "theorems": [
    "Verif.C110_to_csd_error",
    "Verif.C110_to_csd_exact_value",
    "Verif.C110_to_decimal",
    "Verif.C110_round_trip",
    "Verif.C110_same_string",
    "Verif.C110_not_canonical",
    "Verif.C110_csdfixed_terminates",
    "Verif.C110_csdfixed"
   ],
   "note": "The rounding is any monotone function that is exact on p-bit numbers with unbounded exponent (IEEE round-half-even is proved to be one). The computed ceil(log(y, 2)) is a parameter: SizeOk only asks that the size is not too small. Overflow and subnormals are outside the model."
  },
  {
   "property": "C111",
   "status": "proved",
   "theorems": [
    "Verif.C111_check",
    "Verif.C111_info_raises",
    "Verif.C111_info",
    "Verif.C111_monotone",
    "Verif.C111_monotone_span",
    "Verif.C111_not_monotone",
    "Verif.C111_last_unchecked",
    "Verif.C111_corr_bspline",
    "Verif.C111_corr_bspline_raises"
   ],
   "note": "scipy's BSpline (find_interval, Cox-de Boor recursion, extrapolation, constructor checks) is written out in Model/Bspline from its documentation, in exact arithmetic. The sites are at least one."
  },
  {
   "property": "C112",
   "status": "proved",
   "theorems": [
    "Verif.C112_mle_raises",
    "Verif.C112_mle_corr_bspline",
    "Verif.C112_lsq_corr_bspline2",
    "Verif.C112_same_search"
   ],
   "note": "The guarantees are for the version in which cutting_plane_dc stores a copy of the best point; C112_same_search shows that the code as it is performs the same search (same exceptions, knots, iteration count and flag), its returned array being the aliased last centre (C85)."
  },
  {
   "property": "C113",
   "status": "proved",
   "theorems": [
    "Verif.C113_float_bracket",
    "Verif.C113_float_terminates",
    "Verif.C113_float_progress",
    "Verif.C113_float_never_small",
    "Verif.C113_float_least",
    "Verif.C113_int_exact",
    "Verif.C113_int_wrong"
   ],
   "note": "Rationals stand for finite floats; overflow and underflow are not modelled. ieee 53 is an instance (ties to even, shown to be a nearest rounding)."
  },
  {
   "property": "C114",
   "status": "proved",
   "theorems": [
    "Verif.C114_total",
    "Verif.C114_accept",
    "Verif.C114_reject",
    "Verif.C114_cut",
    "Verif.C114_verdict",
    "Verif.C114_double",
    "Verif.C114_wrong_accept",
    "Verif.C114_wrong_reject"
   ],
   "note": "The standard error model (overflow and underflow not modelled); numpy's dot product is any function with the stated error bound, and left-to-right summation is shown to meet it. The exact model of C29/C30 is the instance without rounding (factorF_exact, witnessF_exact)."
  },
  {
   "property": "C115",
   "status": "proved",
   "theorems": [
    "Verif.C115_lmi",
    "Verif.C115_lmi0",
    "Verif.C115_lmi_old_agrees",
    "Verif.C115_exact",
    "Verif.C115_double"
   ],
   "note": "Overflow and underflow left out."
  },
  {
   "property": "C116",
   "status": "proved",
   "theorems": [
    "Verif.C116_qmi",
    "Verif.C116_lsq",
    "Verif.C116_exact",
    "Verif.C116_double"
   ],
   "note": "Overflow and underflow left out; lsq_oracle assumes a dot product depends on nothing but its slices (it calls witness twice)."
  },
  {
   "property": "C117",
   "status": "proved",
   "theorems": [
    "Verif.C117_update",
    "Verif.C117_symmetric",
    "Verif.C117_reject",
    "Verif.C117_exact",
    "Verif.C117_nosoln",
    "Verif.C117_double",
    "Verif.C117_loses_pd",
    "Verif.C117_update_parallel",
    "Verif.C117_thin_indefinite",
    "Verif.C117_thin_grows"
   ],
   "note": "Overflow and underflow left out. The quantitative bounds are for central and deep cuts and for parallel cuts with 0 <= b0 < b1 <= tau; for the other parallel cuts (shallow b0, b1 beyond the ellipsoid by more than rounding) symmetry, unchanged rejects and the exact limit are proved. `C117_loses_pd` is the counterexample without the condition bound; `C117_thin_indefinite` and `C117_thin_grows` show that thin parallel cuts break even the best conditioned ellipsoid."
  },
  {
   "property": "C118",
   "status": "proved",
   "theorems": [
    "Verif.C118_refines",
    "Verif.C118_shape_private",
    "Verif.C118_copy",
    "Verif.C118_example"
   ],
   "note": "Simulation between a model with both arrays in memory and the model whose matrix is a value; the invariant is that no two objects hold the same matrix reference. C118_example shows the shape of the original unchanged and its centre moved."
  },
  {
   "property": "C119",
   "status": "proved",
   "theorems": [
    "Verif.C119_finishes",
    "Verif.C119_exact",
    "Verif.C119_accuracy",
    "Verif.C119_positive_cycle",
    "Verif.C119_assertion_fails",
    "Verif.C119_missed"
   ],
   "note": "Termination uses only monotonicity of the computed addition (a k-edge chain invariant replaces path weights). Exact arithmetic gives back the model of C67 (C119_exact). The three counterexamples hold for every rounding to nearest with 53 bits."
  },
  {
   "property": "C120",
   "status": "proved",
   "theorems": [
    "Verif.LowDiscr.C120_vdc",
    "Verif.LowDiscr.C120_vdc_order",
    "Verif.LowDiscr.C120_base_two",
    "Verif.LowDiscr.C120_base_two_range",
    "Verif.LowDiscr.C120_one",
    "Verif.LowDiscr.C120_sphere_args",
    "Verif.LowDiscr.C120_bad"
   ],
   "note": "Overflow of denom (index above 2^1023) is left out. sin, cos and sqrt themselves are not rounded here."
  },
  {
   "property": "C121",
   "status": "proved",
   "theorems": [
    "Verif.C121_lmi",
    "Verif.C121_lmi0",
    "Verif.C121_lsq",
    "Verif.C121_lmi_bits",
    "Verif.C121_lsq_bits"
   ],
   "note": "Overflow, underflow, nan and inf excluded. Says nothing about runs that report no solution: the volume argument does not survive rounding without inflating the ellipsoid (see C117)."
  },
  {
   "property": "C122",
   "status": "proved",
   "theorems": [
    "Verif.C122_lowpass",
    "Verif.C122_exact",
    "Verif.C122_run"
   ],
   "note": "The matrices are taken as given floats (the error of np.cos in create_lowpass_case is part of the data). Overflow, underflow, nan and inf excluded."
  },
  {
   "property": "C123",
   "status": "proved",
   "theorems": [
    "Verif.C123_pts",
    "Verif.C123_update",
    "Verif.C123_space",
    "Verif.C123_feas",
    "Verif.C123_dc",
    "Verif.C123_q",
    "Verif.C123_scalar_array",
    "Verif.C123_scalar_array_feas",
    "Verif.C123_scalar_array_dc",
    "Verif.C123_array_rescales"
   ],
   "note": "Exact arithmetic. Relation AffineImage in Spec/AffineSpec.lean; one-step C123_update needs no hypothesis besides the relation; runs through simulation lemmas with related cuts (Proofs/SimCut.lean)."
  },
  {
   "property": "C124",
   "status": "proved",
   "theorems": [
    "Verif.LowDiscr.C124_halton_n",
    "Verif.LowDiscr.C124_halton_n_error",
    "Verif.LowDiscr.C124_class",
    "Verif.LowDiscr.C124_distinct",
    "Verif.LowDiscr.C124_equidistributed"
   ],
   "note": "Generators are state machines with next; StopIteration inside a generator is a RuntimeError (PEP 479). Exact rationals."
  },
  {
   "property": "C125",
   "status": "proved",
   "theorems": [
    "Verif.LowDiscr.C125_prime_table",
    "Verif.LowDiscr.C125_halton_primes"
   ],
   "note": "The data are compared with the filter of 0..7919 by trial division in the kernel (decide +kernel, no axioms); trial division is proved to decide primality below 89^2; entry i equals Nat.nth Nat.Prime i."
  },
  {
   "property": "C126",
   "status": "proved",
   "theorems": [
    "Verif.C126_imi",
    "Verif.C126_meaning",
    "Verif.C126_no_cut",
    "Verif.C126_line61_shift",
    "Verif.C126_line61"
   ],
   "note": "Three variants of the program in Model/Imi.lean (as written, old chol_ext interface, corrected); C126_line61, C126_line61_shift (what line 61 adds, in general) and C126_no_cut are the defects."
  },
  {
   "property": "C127",
   "status": "proved",
   "theorems": [
    "Verif.C127_ell_contains",
    "Verif.C127_ell_minimal",
    "Verif.C127_not_minimal_beyond"
   ],
   "note": "Optimality (C127_ell_minimal, with uniqueness), containment (C127_ell_contains), and the finding C127_not_minimal_beyond for b0 < -tau. A flat result (beta = tau) has volume zero and is covered."
  },
  {
   "property": "C128",
   "status": "proved",
   "theorems": [
    "Verif.C128_exact",
    "Verif.C128_total",
    "Verif.C128_update",
    "Verif.C128_radius",
    "Verif.C128_feas_verdict",
    "Verif.C128_feas_stops",
    "Verif.C128_feas_finds",
    "Verif.C128_verdict",
    "Verif.C128_init",
    "Verif.C128_copy",
    "Verif.C128_copy_loses",
    "Verif.C128_negative_radius"
   ],
   "note": "One update (C128_update, C128_radius, C128_verdict, C128_total), whole runs (C128_feas_verdict, C128_feas_stops, C128_feas_finds), constructor and copy (C128_init, C128_copy), agreement with the exact model without rounding (C128_exact), findings C128_negative_radius and C128_copy_loses. Overflow, underflow, nan and inf are excluded."
  },
  {
   "property": "C129",
   "status": "proved",
   "theorems": [
    "Verif.C129_run",
    "Verif.C129_stops",
    "Verif.C129_apriori",
    "Verif.C129_exact",
    "Verif.C129_raises",
    "Verif.C129_finder",
    "Verif.C129_finder_raises",
    "Verif.C129_drop",
    "Verif.C129_case1",
    "Verif.C129_case2",
    "Verif.C129_assertion"
   ],
   "note": "Soundness of whole runs (C129_run), length (C129_stops), a priori bound on the potentials (C129_apriori), contracts of the finder (C129_finder, C129_drop, C129_finder_raises), errors (C129_raises), agreement with the exact model without rounding (C129_exact), the graphs of the tests in doubles (C129_case1, C129_case2), finding C129_assertion. Overflow, underflow, nan and inf are excluded; times are taken as stored."
  },
  {
   "property": "C130",
   "status": "proved",
   "theorems": [
    "Verif.C130_update",
    "Verif.C130_rounds",
    "Verif.C130_feas",
    "Verif.C130_ball",
    "Verif.C130_firm"
   ],
   "note": "One update (C130_update), accumulated loss (C130_rounds), verdicts (C130_feas), finding a ball (C130_ball), oracles with state and arbitrary sets (C130_firm), concrete run in doubles. That the ellipsoids of a run stay resolved is a hypothesis (RunResolved), which C133 derives from the problem and the precision: the condition number of Q can grow with the run (see C117). Parallel cuts, underflow, overflow, nan and inf are excluded."
  },
  {
   "property": "C131",
   "status": "proved",
   "theorems": [
    "Verif.C131_dc",
    "Verif.C131_room"
   ],
   "note": "General form (C131_dc), convex programs with inexact oracles (C131_room), concrete run in doubles. That the ellipsoids stay resolved is a hypothesis (DcResolved), as in C130; C133 derives it from the problem and the precision. Parallel cuts, underflow, overflow, nan and inf are excluded."
  },
  {
   "property": "C132",
   "status": "proved",
   "theorems": [
    "Verif.C132_cut",
    "Verif.C132_lmi",
    "Verif.C132_lmi_bits"
   ],
   "note": "C132_cut (margin of the cuts), C132_lmi, C132_lmi_bits, concrete run in doubles. That the ellipsoids stay resolved and the centres keep the entries below M for at most N rounds is a hypothesis (FeasResolved), as in C130; C133 derives it from the problem and the precision. Underflow, overflow, nan and inf are excluded."
  },
  {
   "property": "C133",
   "status": "proved",
   "theorems": [
    "Verif.C133_resolved",
    "Verif.C133_feas",
    "Verif.C133_dc_resolved",
    "Verif.C133_dc",
    "Verif.C133_uniform",
    "Verif.C133_precise",
    "Verif.C133_lmi_bits",
    "Verif.C133_lmi",
    "Verif.C133_room"
   ],
   "note": "C133_resolved, C133_feas, C133_dc_resolved, C133_dc, C133_precise, C133_lmi_bits, C133_lmi, C133_room; concrete: -x0 >= 0 in the unit disc in doubles within ten iterations. Single cuts only. Underflow, overflow, nan and inf are excluded."
  },
  {
   "property": "C134",
   "status": "proved",
   "theorems": [
    "Verif.C134_update",
    "Verif.C134_rounds",
    "Verif.C134_feas",
    "Verif.C134_dc",
    "Verif.C134_precise"
   ],
   "note": "C134_update, C134_rounds, C134_feas, C134_dc, C134_precise; the update is cut_ok (Proofs/EllFloatParRun.lean). Concrete: a strip in the unit disc with parallel cuts. The constants are not sharp: for doubles the conditions are met only by very short runs. Underflow, overflow, nan and inf are excluded."
  },
  {
   "property": "C135",
   "status": "proved",
   "theorems": [
    "Verif.C135_lowpass",
    "Verif.C135_design"
   ],
   "note": "C135_lowpass, C135_design; concrete: exLp of C48 from the disc of radius 10. The matrices are taken as given floats. Underflow, overflow, nan and inf are excluded."
  },
  {
   "property": "C136",
   "status": "proved",
   "theorems": [
    "Verif.C136_exact",
    "Verif.C136_profit_rb",
    "Verif.C136_profit",
    "Verif.C136_level_falls"
   ],
   "note": "C136_profit, C136_profit_rb, C136_exact (without rounding this is the model of C44-C46), C136_level_falls. Concrete: p = 4, relative error 1/1000. The logarithm and the exponential are parameters with a relative error, as good libraries provide it. Underflow, overflow, nan and inf are excluded."
  },
  {
   "property": "C137",
   "status": "proved",
   "theorems": [
    "Verif.C137_found",
    "Verif.C137_returned",
    "Verif.C137_precise",
    "Verif.C137_rb",
    "Verif.C137_profit",
    "Verif.C137_test_profit"
   ],
   "note": "C137_profit, C137_rb, C137_test_profit; explicit conditions in C137_found, C137_returned, existence of the precision in C137_precise. For the returned value the centres are assumed to stay in a box, because after the value is reached the ellipsoids may become too small for the arithmetic. The precision is not sharp. Underflow, overflow, nan and inf are excluded."
  },
  {
   "property": "C138",
   "status": "proved",
   "theorems": [
    "Verif.C138_dc",
    "Verif.C138_oracle",
    "Verif.C138_exact",
    "Verif.C138_optscaling",
    "Verif.C138_returned",
    "Verif.C138_bits"
   ],
   "note": "C138_optscaling; C138_bits for neg_cycle.tpy and p-bit rounding to nearest; C138_oracle bounds one call; C138_returned needs no precision; C138_exact: without rounding it is the model of C94. C138_dc is the general theorem for slightly shallow cuts and state besides the ellipsoid. The precision is not sharp. Self-loops are excluded: they raise the assertion of line 46. Underflow, overflow, nan and inf are excluded."
  },
  {
   "property": "C139",
   "status": "proved",
   "theorems": [
    "Verif.C139_oracle",
    "Verif.C139_lsq",
    "Verif.C139_returned",
    "Verif.C139_bits"
   ],
   "note": "C139_lsq; C139_bits for p-bit rounding to nearest with all sums from the left; C139_oracle bounds one call; C139_returned holds for any search space. The precision and N are not sharp. That a run returns is not claimed: after the level is found an update may raise. The returned point is the copied one (C08). Underflow, overflow, nan and inf are excluded."
  },
  {
   "property": "C140",
   "status": "proved",
   "theorems": [
    "Verif.C140_adaptor",
    "Verif.C140_accepts",
    "Verif.C140_verdict",
    "Verif.C140_search",
    "Verif.C140_qmi_call",
    "Verif.C140_qmi_level",
    "Verif.C140_lsq_corr_accepts",
    "Verif.C140_lsq_corr_search"
   ],
   "note": "C140_adaptor is the refinement; C140_accepts, C140_verdict, C140_search hold for every oracle with a level that is right up to rounding (RoundedLevelOracle); C140_qmi_call and C140_qmi_level show that qmi_oracle is one; C140_lsq_corr_accepts and C140_lsq_corr_search put them together. As in C96 the search is not claimed to find the optimum: a rejected probe moves the shared centre, so a later probe searches another ball. Precision and N are not sharp. Underflow, overflow, nan and inf are excluded."
  },
  {
   "property": "C141",
   "status": "proved",
   "theorems": [
    "Verif.C141_room",
    "Verif.C141_lmi",
    "Verif.C141_oracle",
    "Verif.C141_sdp",
    "Verif.C141_returned",
    "Verif.C141_same",
    "Verif.C141_test"
   ],
   "note": "C141_room is the statement for every convex program whose oracle is right up to rounding in a box (BoxRoomOracle); C141_lmi and C141_oracle show that the oracle of the test is one; C141_sdp, C141_returned and C141_test put them together; C141_same is the agreement of the two oracle classes. Precision and N are not sharp. Underflow, overflow, nan and inf are excluded (t0 = inf is included)."
  },
  {
   "property": "C142",
   "status": "proved",
   "theorems": [
    "Verif.C142_row",
    "Verif.C142_oracle",
    "Verif.C142_fir",
    "Verif.C142_returned",
    "Verif.C142_test"
   ],
   "note": "C142_row bounds the rounding errors at one frequency, C142_oracle those of one call, by multiples of u Z^2 with an explicit Z; C142_fir, C142_returned and C142_test are the runs, through C141_room. t_r**2 is taken to be a rounded product. Precision and N are not sharp. Underflow, overflow, nan and inf are excluded."
  },
  {
   "property": "C143",
   "status": "proved",
   "theorems": [
    "Verif.C143_levels",
    "Verif.C143_lp_call",
    "Verif.C143_example1",
    "Verif.C143_test_example1",
    "Verif.C143_hit1",
    "Verif.C143_cut1",
    "Verif.C143_hit2",
    "Verif.C143_cut2",
    "Verif.C143_quasi1",
    "Verif.C143_quasi2",
    "Verif.C143_test_quasicvx",
    "Verif.C143_test_quasicvx2"
   ],
   "note": "C143_levels is the general run theorem for oracles that are right at representable centres and some levels only; C143_hit1, C143_cut1, C143_hit2, C143_cut2 and C143_lp_call are one call of each oracle; C143_quasi1, C143_quasi2, C143_example1 and the C143_test theorems are the runs. That levels do not get worse uses that rounding is monotone and keeps representable numbers, and that centre and level are representable, which is an invariant of the run. math.sqrt is the rounded square root. The point returned for test_example1.py is not claimed to be good, see C100. N and the number of bits are not sharp. Underflow, overflow, nan and inf are excluded."
  },
  {
   "property": "C144",
   "status": "proved",
   "theorems": [
    "Verif.C144_call",
    "Verif.C144_example2",
    "Verif.C144_test_feasible",
    "Verif.C144_test_infeasible",
    "Verif.C144_example1_infeasible1",
    "Verif.C144_quasicvx_infeasible1"
   ],
   "note": "C144_call is one oracle call, C144_example2 the general run (by C134), C144_test_feasible, C144_test_infeasible, C144_example1_infeasible1 and C144_quasicvx_infeasible1 the tests. test_case_infeasible1 of test_quasicvx2.py is not covered: its first cut does not miss the ellipsoid. N and the number of bits of the general theorem are not sharp. Underflow, overflow, nan and inf are excluded."
  },
  {
   "property": "C145",
   "status": "proved",
   "theorems": [
    "Verif.C145_evaluate",
    "Verif.C145_same",
    "Verif.C145_any_state",
    "Verif.C145_first_entry"
   ],
   "note": "C145_evaluate is one call, C145_same the port with fresh counters (equality of the loops, including which row attains the maximum first), C145_any_state any counters (with C48), C145_first_entry a point where they differ. Numbers are reals; without stopband rows Matlab returns empty arrays, which is an error in the model."
  },
  {
   "property": "C146",
   "status": "proved",
   "theorems": [
    "Verif.C146_distance",
    "Verif.C146_poly",
    "Verif.C146_horner",
    "Verif.C146_lsq",
    "Verif.C146_returned",
    "Verif.C146_bits"
   ],
   "note": "C146_distance, C146_poly and C146_horner are the data and the evaluation; C146_lsq and C146_returned are runs on perturbed data, against the intended data; C146_bits puts them together with rounding to nearest in p bits. No underflow or overflow. The number of bits is not made explicit."
  },
  {
   "property": "C147",
   "status": "proved",
   "theorems": [
    "Verif.C147_wrapper",
    "Verif.C147_lsq",
    "Verif.C147_returned",
    "Verif.C147_bits",
    "Verif.C147_spline"
   ],
   "note": "C147_wrapper is one call; C147_lsq and C147_returned are runs for any rounding with small relative errors; C147_bits is rounding to nearest in p bits; C147_spline is the consequence for the spline. scipy's rounded evaluation of the basis splines is not modelled: it enters as the distance between stored and intended matrices. No underflow or overflow. The number of bits is not made explicit."
  },
  {
   "property": "C148",
   "status": "proved",
   "theorems": [
    "Verif.LowDiscr.C148_circle",
    "Verif.LowDiscr.C148_sphere",
    "Verif.LowDiscr.C148_sphere3_hopf",
    "Verif.C148_sites"
   ],
   "note": "C148_circle, C148_sphere and C148_sphere3_hopf are the points; C148_sites the sites, with the generators rounded as well (C120). Double precision and the 80 sites of the tests are an example. No underflow or overflow. The package pylds is taken to be the class of the same name in low_discr_seq.tpy, as in C87."
  },
  {
   "property": "C149",
   "status": "proved",
   "theorems": [
    "Verif.C149_entries",
    "Verif.C149_posdef",
    "Verif.C149_create"
   ],
   "note": "C149_entries is the matrix, C149_posdef the definiteness near any set of different sites, C149_create both functions one after the other. The number of bits is not made explicit: whether 53 bits suffice for the 80 sites of the tests is not claimed. The Cholesky routine is its contract (exact, as in C88); the random sampling loop is not rounded. No underflow or overflow; in particular exp never underflows to 0."
  },
  {
   "property": "C150",
   "status": "proved",
   "theorems": [
    "Verif.C150_call",
    "Verif.C150_run"
   ],
   "note": "C150_call is one call in any reachable state, C150_run whole runs with any search space (rounded ell included) whose centres stay in a box. The precision is not made explicit. The best-so-far value may fall by rounding (C136), hence t >= t0 - nu only. The sign of the shift is the defect of C47: no optimality is claimed. No overflow or underflow."
  },
  {
   "property": "C151",
   "status": "proved",
   "theorems": [
    "Verif.Csdigit.C151_csdigit",
    "Verif.Csdigit.C151_spec",
    "Verif.Csdigit.C151_sharp"
   ],
   "note": "C151_csdigit is equality with the exact model for all fuel, C151_spec the statement of C97 read off it, C151_sharp the counterexample with one bit less. bin2dec is modelled as rounded sums, last digit first. The default range (csdigit.m:53, a quotient of logarithms) is not part of the rounded model. No overflow or underflow."
  }
 ]
}