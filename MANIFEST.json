{
 "claims": [
  {
   "property": "C01",
   "status": "proved",
   "theorems": [
    "Mica.C01_wrap_range",
    "Mica.C01_wrap_id",
    "Mica.C01_wrap_unique",
    "Mica.C01_wrap_degenerate",
    "Mica.C01_limit"
   ],
   "note": "Real arithmetic."
  },
  {
   "property": "C02",
   "status": "proved",
   "theorems": [
    "Mica.C02_modInt",
    "Mica.C02_modInt_eq_emod"
   ],
   "note": "No int overflow."
  },
  {
   "property": "C03",
   "status": "proved",
   "theorems": [
    "Mica.C03_in_prior",
    "Mica.C03_total"
   ],
   "note": "Continuum model; all random streams, widths, accept/reject histories."
  },
  {
   "property": "C04",
   "status": "proved",
   "theorems": [
    "Mica.C04_fixed"
   ],
   "note": "Continuum model."
  },
  {
   "property": "C05",
   "status": "proved",
   "theorems": [
    "Mica.C05_thresholds",
    "Mica.C05_kept"
   ],
   "note": "likelihood assumed to be at least -DBL_MAX (no NaN, no -inf)"
  },
  {
   "property": "C06",
   "status": "proved",
   "theorems": [
    "Mica.C06_constraint"
   ],
   "note": "same assumption on the likelihood as C05"
  },
  {
   "property": "C07",
   "status": "proved",
   "theorems": [
    "Mica.C07_current"
   ],
   "note": "same assumption on the likelihood as C05"
  },
  {
   "property": "C08",
   "status": "proved",
   "theorems": [
    "Mica.C08_counts"
   ],
   "note": "same assumption on the likelihood as C05"
  },
  {
   "property": "C09",
   "status": "proved",
   "theorems": [
    "Mica.C09_merge"
   ],
   "note": "in a round without renormalisation (which only follows creation of the last level)"
  },
  {
   "property": "C10",
   "status": "proved",
   "theorems": [
    "Mica.C10_recurrence",
    "Mica.C10_decreasing"
   ],
   "note": "positive regularisation, compression >= 1"
  },
  {
   "property": "C11",
   "status": "proved",
   "theorems": [
    "Mica.C11_quantile"
   ],
   "note": ""
  },
  {
   "property": "C12",
   "status": "proved",
   "theorems": [
    "Mica.C12_sort",
    "Mica.C12_not_iso"
   ],
   "note": "for glibc's merge sort; C12_not_iso shows that the comparator is not valid for an arbitrary ISO C qsort"
  },
  {
   "property": "C13",
   "status": "partial",
   "theorems": [
    "Mica.C13_no_ub_partial",
    "Mica.C13_merged_buffer_partial",
    "Mica.C13_compression_one",
    "Mica.C13_zero_steps",
    "Mica.C13_task_buffer"
   ],
   "note": "Proved for compression > 1 (no out-of-range access in any execution) and compression >= 6/5 (merged buffer large enough). The full claim is false: compression 1 and zero thread steps are accepted by the option reader and give undefined behaviour."
  },
  {
   "property": "C14",
   "status": "proved",
   "theorems": [
    "Mica.C14_replacement",
    "Mica.C14_total"
   ],
   "note": "Totality is stated as: random choices that end the loop always exist."
  },
  {
   "property": "C15",
   "status": "proved",
   "theorems": [
    "Mica.C15_recorded",
    "Mica.C15_task_widens",
    "Mica.C15_round_widens",
    "Mica.C15_nested"
   ],
   "note": ""
  },
  {
   "property": "C16",
   "status": "partial",
   "theorems": [
    "Mica.C16_stops",
    "Mica.C16_exact_partial",
    "Mica.C16_terminates",
    "Mica.C16_overflow"
   ],
   "note": "Stopping at exactly the requested number holds always; one save per interval holds without 32-bit overflow of saves*interval; with overflow it is false."
  },
  {
   "property": "C17",
   "status": "partial",
   "theorems": [
    "Mica.C17_roundtrip_partial",
    "Mica.C17_long_run"
   ],
   "note": "Reading back a restart file gives the saved state when the 64-bit step counter fits in 32 bits; C17_long_run shows the counter (and so the state) is not restored for longer runs, because only 4 bytes are written. The likelihood pool of the non-root tasks is empty at save time, the pool kept by each task is not part of the file."
  },
  {
   "property": "C18",
   "status": "proved",
   "theorems": [
    "Mica.C18_invariants",
    "Mica.C18_changed_levels",
    "Mica.C18_underflow"
   ],
   "note": "Invariants hold after restart with the same and with a changed level limit; C18_underflow exhibits the undefined read when the recomputed likelihood is below the first level."
  },
  {
   "property": "C19",
   "status": "proved",
   "theorems": [
    "Mica.C19_logsumexp",
    "Mica.C19_shift"
   ],
   "note": "Real arithmetic."
  },
  {
   "property": "C20",
   "status": "proved",
   "theorems": [
    "Mica.C20_distribution",
    "Mica.C20_shift"
   ],
   "note": "The weights column of weights.txt is relative to the largest weight; the normalised probabilities are shown to sum to one."
  },
  {
   "property": "C21",
   "status": "proved",
   "theorems": [
    "Mica.C21_ess"
   ],
   "note": ""
  },
  {
   "property": "C22",
   "status": "proved",
   "theorems": [
    "Mica.C22_samples",
    "Mica.C22_terminates",
    "Mica.C22_file"
   ],
   "note": "Random numbers are inputs; termination when they keep returning to every sample."
  },
  {
   "property": "C23",
   "status": "partial",
   "theorems": [
    "Mica.C23_prior_mass_partial",
    "Mica.C23_lone_sample",
    "Mica.C23_order",
    "Mica.C23_sandwich",
    "Mica.C23_recalculated"
   ],
   "note": "Finite prior mass for every sample; log X is not a number for a sample alone in its level (C23_lone_sample), a defect of the code."
  },
  {
   "property": "C24",
   "status": "proved",
   "theorems": [
    "Mica.C24_solver",
    "Mica.C24_solver_matrix",
    "Mica.C24_inverse",
    "Mica.C24_needs_noise"
   ],
   "note": "Semiseparable solver, over the reals: for strictly positive noise the stored factors give the inverse, the solution and the log-determinant of the dense covariance; without noise and with two equal times the factorisation breaks down."
  },
  {
   "property": "C25",
   "status": "partial",
   "theorems": [
    "Mica.C25_partition",
    "Mica.C25_iter_partial",
    "Mica.C25_iter_posdef_partial",
    "Mica.C25_iter_lndet",
    "Mica.C25_semi_iter_partial",
    "Mica.C25_no_band"
   ],
   "note": "Partitioned inversion returns the inverse and log-determinant of the full matrix whenever the leading blocks are invertible (positive definite matrices meet this) and there is at least one band after the first block. With no band the code leaves the array uninverted (C25_no_band), only the log-determinant is right."
  },
  {
   "property": "C26",
   "status": "partial",
   "theorems": [
    "Mica.C26_con",
    "Mica.C26_line_whole",
    "Mica.C26_line_partial",
    "Mica.C26_transfer_partial",
    "Mica.C26_no_line"
   ],
   "note": "Continuum: complete. Lines: for positive definite covariance (guaranteed by noise, C30). The variant used for sampling differs from the other three for data sets without lines (C26_no_line), so its agreement is proved for sets that have a line."
  },
  {
   "property": "C27",
   "status": "partial",
   "theorems": [
    "Mica.C27_con",
    "Mica.C27_minimal",
    "Mica.C27_line_partial",
    "Mica.C27_transfer_partial",
    "Mica.C27_layout",
    "Mica.C26_no_line"
   ],
   "note": "Continuum: complete. Lines: every data set has a line; the claim is false for a data set without lines (C26_no_line)."
  },
  {
   "property": "C28",
   "status": "proved",
   "theorems": [
    "Mica.C28_con",
    "Mica.C28_line",
    "Mica.C28_transfer"
   ],
   "note": "All four line likelihoods, data sets without lines included."
  },
  {
   "property": "C29",
   "status": "proved",
   "theorems": [
    "Mica.C29_psd",
    "Mica.C29_pd",
    "Mica.C29_distinct"
   ],
   "note": ""
  },
  {
   "property": "C30",
   "status": "partial",
   "theorems": [
    "Mica.C30_psd_partial",
    "Mica.C30_pd_partial",
    "Mica.C30_gauss_tophat",
    "Mica.C30_band"
   ],
   "note": "Proved for any number of lines, components, types, times and parameters outside the narrow band around the damping timescale where the code switches to a limiting formula; unconditional for Gaussian and top-hat. In the band the claim is false (C30_band)."
  },
  {
   "property": "C31",
   "status": "proved",
   "theorems": [
    "Mica.C31_tophat"
   ],
   "note": "All times, lags, widths; continuum-line, auto- and cross-covariances."
  },
  {
   "property": "C32",
   "status": "proved",
   "theorems": [
    "Mica.C32_gauss"
   ],
   "note": "erfc and gsl_sf_log_erfc by their mathematical meaning."
  },
  {
   "property": "C33",
   "status": "proved",
   "theorems": [
    "Mica.C33_exp"
   ],
   "note": "Outside the band and exactly at equal timescales, as stated."
  },
  {
   "property": "C34",
   "status": "proved",
   "theorems": [
    "Mica.C34_gamma"
   ],
   "note": "Outside the band and exactly at equal timescales."
  },
  {
   "property": "C35",
   "status": "partial",
   "theorems": [
    "Mica.C35_mixture_partial",
    "Mica.C35_pair_partial",
    "Mica.C35_swap",
    "Mica.C35_band"
   ],
   "note": "All sixteen ordered pairs of types outside the band (and at equality); transposition without condition; in the band the formula is not the integral (C35_band)."
  },
  {
   "property": "C36",
   "status": "partial",
   "theorems": [
    "Mica.C36_pair",
    "Mica.C36_cross",
    "Mica.C36_auto",
    "Mica.C36_single",
    "Mica.C36_gauss_tophat",
    "Mica.C36_band"
   ],
   "note": "Holds except for two exponential or two gamma components with one timescale in the band whose responses start at exactly the same instant (C36_band)."
  },
  {
   "property": "C37",
   "status": "proved",
   "theorems": [
    "Mica.C37_once",
    "Mica.C37_entry",
    "Mica.C37_outside"
   ],
   "note": ""
  },
  {
   "property": "C38",
   "status": "partial",
   "theorems": [
    "Mica.C38_con",
    "Mica.C38_con_trend",
    "Mica.C38_con_exact",
    "Mica.C38_line_partial",
    "Mica.C38_line_trend_partial",
    "Mica.C38_line_error_partial",
    "Mica.C38_line_exact_partial",
    "Mica.C38_no_line"
   ],
   "note": "Continuum: complete for both variants. Lines: for data sets with at least one line all three variants agree and are the best linear unbiased prediction for any covariance functions with a positive definite data covariance; non-negative error and exact reproduction of noise-free points are proved for the code's transfer functions outside the band |width-tau| < EPS where the code replaces formulas by limits. A data set without lines can get NaN errors from the variant in use (C38_no_line). Exact real arithmetic."
  },
  {
   "property": "C39",
   "status": "proved",
   "theorems": [
    "Mica.C39_layout",
    "Mica.C39_ranges",
    "Mica.C39_range_values",
    "Mica.C39_roles"
   ],
   "note": "all numbers of data sets, lines, components and both sharing options; indices, ranges (given in terms of the options) and the index arithmetic of the moves agree"
  },
  {
   "property": "C40",
   "status": "partial",
   "theorems": [
    "Mica.C40_accept",
    "Mica.C40_options",
    "Mica.C40_values",
    "Mica.C40_defaults",
    "Mica.C40_order_partial",
    "Mica.C40_alias",
    "Mica.C40_no_value"
   ],
   "note": "Acceptance, values and defaults proved for all texts whose lines fit the 200-byte buffer; independence of the order holds unless both spellings of a component number are used (C40_alias); tags without a value are ignored even if unknown (C40_no_value)."
  },
  {
   "property": "C41",
   "status": "partial",
   "theorems": [
    "Mica.C41_consistent_partial",
    "Mica.C41_accepts",
    "Mica.C41_lag",
    "Mica.C41_flags",
    "Mica.C41_mixture",
    "Mica.C41_mixture_prior"
   ],
   "note": "The documented relations hold after every accepted file except: lag limits of models other than 0 are not checked (C41_lag), FlagNegativeResp and TypeTF are not validated (C41_flags), the mixture model changes the component numbers after the checks (C41_mixture), and its lag prior type is reset to 0 when the number of components is left at its default (C41_mixture_prior)."
  },
  {
   "property": "C42",
   "status": "partial",
   "theorems": [
    "Mica.C42_read_partial",
    "Mica.C42_read_exit_partial",
    "Mica.C42_empty_line",
    "Mica.C42_nmap_partial",
    "Mica.C42_nmap_single",
    "Mica.C42_negative",
    "Mica.C42_short_header"
   ],
   "note": "For a file in the documented format whose empty line light curves come last, exactly the listed points are read, or the program stops. Negations: an empty line before a non-empty one leaves a count unset (C42_empty_line); in mode nmap a header line without lines writes through a null pointer (C42_nmap_single); a negative number of points is not rejected (C42_negative); header lines missing at the end of the file are replaced by the last line read, and the program stops (C42_short_header)."
  },
  {
   "property": "C43",
   "status": "partial",
   "theorems": [
    "Mica.C43_scale",
    "Mica.C43_accept",
    "Mica.C43_factor",
    "Mica.C43_errors",
    "Mica.C43_file_partial",
    "Mica.C43_vmap_file"
   ],
   "note": "Scaling divides by a positive factor stored for later; relative errors unchanged. The written normalisation file holds the factors except for velocity-map runs, where an uninitialised number is written (C43_vmap_file)."
  },
  {
   "property": "C44",
   "status": "partial",
   "theorems": [
    "Mica.C44_split_partial",
    "Mica.C44_unbalanced"
   ],
   "note": "exactly-once split, buffers in bounds; balance within one is false: the root takes the whole remainder (witness C44_unbalanced)"
  },
  {
   "property": "C45",
   "status": "partial",
   "theorems": [
    "Mica.C45_windows",
    "Mica.C45_stay_partial",
    "Mica.C45_clipped"
   ],
   "note": "windows adjacent, equal, covering the lag range cut to half the time span; lags stay in their windows when the configured range lies within half the time span and the positive-lag option is off. The full claim is false: the fixed lags of types 2 and 3 use the uncut range (C45_clipped)"
  },
  {
   "property": "C46",
   "status": "partial",
   "theorems": [
    "Mica.C46_order_partial",
    "Mica.C46_positivity"
   ],
   "note": "order and range invariant when the positive-lag option is off; with that option the initial draw can be out of order (C46_positivity)"
  },
  {
   "property": "C47",
   "status": "partial",
   "theorems": [
    "Mica.C47_penalty_partial",
    "Mica.C47_initial"
   ],
   "note": "moves are charged -100 exactly when the constraint fails; the claim about the initial draw is false: from_prior_line tests amplitude and lag instead of lag and width, and may set a lag outside its range (C47_initial)"
  },
  {
   "property": "C48",
   "status": "proved",
   "theorems": [
    "Mica.C48_best"
   ],
   "note": "all evidence lists of finite doubles"
  },
  {
   "property": "C49",
   "status": "partial",
   "theorems": [
    "Mica.C49_lag",
    "Mica.C49_width",
    "Mica.C49_ratio_default",
    "Mica.C49_ratio_partial",
    "Mica.C49_ratio_pairs",
    "Mica.C49_gap_partial",
    "Mica.C49_gap_shift"
   ],
   "note": "Lag and width prior strings: as documented. Ratio: default and a single pair only; two or more pairs are undefined behaviour. Gap: one data set only; with more, set i gets values i and i+1."
  },
  {
   "property": "C50",
   "status": "proved",
   "theorems": [
    "Mica.C50_summary",
    "Mica.C50_short",
    "Mica.C65_reconstruct"
   ],
   "note": "parameter summaries; C65_reconstruct covers the averaged light curves (variance argument of sqrt never negative)"
  },
  {
   "property": "C51",
   "status": "partial",
   "theorems": [
    "Mica.C51_never",
    "Mica.C51_frozen",
    "Mica.C51_accept_partial"
   ],
   "note": "False for the code: in this mode var_param_std is zero, the proposal ratio is not a number and no proposal changing a continuum parameter is ever accepted (C51_never, C51_frozen). The acceptance rule is right when the deviations are non-zero (C51_accept_partial)."
  },
  {
   "property": "C52",
   "status": "proved",
   "theorems": [
    "Mica.C52_check",
    "Mica.C52_current",
    "Mica.C52_lower_patch"
   ],
   "note": "acceptance decision right for all versions; the finer outcome 'lower' is misreported as 'equal' for a lower patch number (C52_lower_patch), invisible with the current patch number 0"
  },
  {
   "property": "C53",
   "status": "proved",
   "theorems": [
    "Mica.C53_acceptance"
   ],
   "note": ""
  },
  {
   "property": "C54",
   "status": "proved",
   "theorems": [
    "Mica.C54_values",
    "Mica.C54_inplace",
    "Mica.C54_bijective"
   ],
   "note": "values, in-place aliasing, bijectivity"
  },
  {
   "property": "C55",
   "status": "partial",
   "theorems": [
    "Mica.C55_hms_partial",
    "Mica.C55_hms_exact",
    "Mica.C55_overflow",
    "Mica.C55_diff",
    "Mica.C55_wrap",
    "Mica.C55_wall_back"
   ],
   "note": "for durations below 2147486400 s; exactly from there on the int product overflows (C55_hms_exact, C55_overflow)"
  },
  {
   "property": "C56",
   "status": "partial",
   "theorems": [
    "Mica.C56_load_partial",
    "Mica.C56_comment",
    "Mica.C56_blank",
    "Mica.C56_last_line",
    "Mica.C56_index",
    "Mica.C56_drw"
   ],
   "note": "Files consisting of parameter lines are loaded, last line wins. Negations: comment or blank lines never return, a last line without newline is dropped, a negative index writes in front of the arrays. C56_drw: combination with the continuum run."
  },
  {
   "property": "C57",
   "status": "proved",
   "theorems": [
    "Mica.C57_counters"
   ],
   "note": ""
  },
  {
   "property": "C58",
   "status": "proved",
   "theorems": [
    "Mica.C58_level_move"
   ],
   "note": ""
  },
  {
   "property": "C59",
   "status": "proved",
   "theorems": [
    "Mica.C59_agreement",
    "Mica.C59_enough_is_final"
   ],
   "note": ""
  },
  {
   "property": "C60",
   "status": "proved",
   "theorems": [
    "Mica.C60_pivots",
    "Mica.C60_upper",
    "Mica.C60_indefinite",
    "Mica.C60_multiplier"
   ],
   "note": "Bunch-Kaufman pivoting (LAPACK dsytf2) written out as a recursion; for positive definite input no 2x2 pivot is chosen. C60_indefinite shows positive definiteness is needed."
  },
  {
   "property": "C61",
   "status": "proved",
   "theorems": [
    "Mica.C61_profile",
    "Mica.C61_transfer"
   ],
   "note": "Together with C31-C35 for the meaning in the code."
  },
  {
   "property": "C62",
   "status": "partial",
   "theorems": [
    "Mica.C62_line_moves_partial",
    "Mica.C47_initial"
   ],
   "note": "holds with the positive-lag option off and, for shared lags, when the first data set has the most lines; with the option the initial draw can leave the range (C47_initial)"
  },
  {
   "property": "C63",
   "status": "partial",
   "theorems": [
    "Mica.C63_shared_partial",
    "Mica.C63_more_lines"
   ],
   "note": "holds when the first data set has at least as many lines as the others; otherwise the code reads uninitialised indices (C63_more_lines)"
  },
  {
   "property": "C64",
   "status": "partial",
   "theorems": [
    "Mica.C64_gap_partial",
    "Mica.C64_uniform"
   ],
   "note": "holds unless transfer functions are fully shared, in which case only the last data set's gap is used (C64_uniform), or a data set has no lines"
  },
  {
   "property": "C65",
   "status": "proved",
   "theorems": [
    "Mica.C65_reconstruct"
   ],
   "note": "the per-sample reconstruction is a parameter"
  },
  {
   "property": "C66",
   "status": "partial",
   "theorems": [
    "Mica.C66_files_partial",
    "Mica.C66_pmap"
   ],
   "note": "holds in the default mode; fails in pmap and vmap modes (C66_pmap)"
  },
  {
   "property": "C67",
   "status": "partial",
   "theorems": [
    "Mica.C67_nodes_partial",
    "Mica.C67_one_node"
   ],
   "note": "two or more nodes; one node divides by zero (C67_one_node)"
  },
  {
   "property": "C68",
   "status": "partial",
   "theorems": [
    "Mica.C68_options_partial",
    "Mica.C68_small",
    "Mica.C100_line"
   ],
   "note": "Integers exactly, reals to within 0.005 and exactly for multiples of 0.01; smaller values are lost (C68_small). C100_line connects it to the text of the file."
  },
  {
   "property": "C69",
   "status": "partial",
   "theorems": [
    "Mica.C69_intervals_partial",
    "Mica.C69_accepts",
    "Mica.C69_zero_steps",
    "Mica.C69_wrap"
   ],
   "note": "Relation proved when tasks*steps fits 32 bits; zero steps are accepted (C69_zero_steps) and the product can wrap (C69_wrap)."
  },
  {
   "property": "C70",
   "status": "partial",
   "theorems": [
    "Mica.C70_finish_partial",
    "Mica.C70_vmap",
    "Mica.C70_read_partial"
   ],
   "note": "Points in every continuum. In mode vmap the continua must be empty and the final print reads the first point of an empty light curve (C70_vmap)."
  },
  {
   "property": "C71",
   "status": "partial",
   "theorems": [
    "Mica.C71_span",
    "Mica.C71_lag_partial",
    "Mica.C71_negative_limit",
    "Mica.C71_cadence",
    "Mica.C71_width_partial",
    "Mica.C71_same_times"
   ],
   "note": "A negative LagLimitUpp is replaced by the default (C71_negative_limit); coincident times give the logarithm of zero as lower width (C71_same_times)."
  },
  {
   "property": "C72",
   "status": "partial",
   "theorems": [
    "Mica.C72_times_partial",
    "Mica.C72_nodes_partial",
    "Mica.C72_short_set",
    "Mica.C72_zero"
   ],
   "note": "Holds for sets whose span is not much below the longest; short sets collide (C72_short_set), zero span is undefined (C72_zero)."
  },
  {
   "property": "C73",
   "status": "partial",
   "theorems": [
    "Mica.C73_gap_partial",
    "Mica.C73_one_year",
    "Mica.C73_few_points"
   ],
   "note": "Mean of the longest intervals when there are enough of them; otherwise the array is read in front of its start (C73_few_points)."
  },
  {
   "property": "C74",
   "status": "partial",
   "theorems": [
    "Mica.C74_vmap_partial",
    "Mica.C74_fixed",
    "Mica.C74_ordered_exit",
    "Mica.C74_ordered_range",
    "Mica.C74_no_line"
   ],
   "note": "Proved for data sets with lines, without the positive-lag option and, with ordered lags, for lag ranges starting at zero; otherwise false: with a negative lower lag limit the program can stop, with a positive one lags leave their range, and a data set without lines reads uninitialised memory."
  },
  {
   "property": "C75",
   "status": "partial",
   "theorems": [
    "Mica.C75_whole_partial",
    "Mica.C75_used"
   ],
   "note": "Proved for the three likelihood variants that treat the matrix as a whole; false for the one used for sampling (C75_used), whose block inversion leaves the matrix uninverted when there is no line."
  },
  {
   "property": "C76",
   "status": "partial",
   "theorems": [
    "Mica.C76_whole",
    "Mica.C76_used_partial",
    "Mica.C76_agree_partial",
    "Mica.C76_transfer_partial",
    "Mica.C76_trend",
    "Mica.C76_one_line"
   ],
   "note": "full for the direct implementation and for invariance under trends; for the one used for sampling every data set must have two lines or more: with a single line the block inversion leaves the matrix uninverted (C76_one_line proves a wrong value)"
  },
  {
   "property": "C77",
   "status": "proved",
   "theorems": [
    "Mica.C77_lag_origin"
   ],
   "note": "both implementations, no condition on data or parameters"
  },
  {
   "property": "C78",
   "status": "proved",
   "theorems": [
    "Mica.C78_continuum",
    "Mica.C78_line"
   ],
   "note": "Detailed balance, in exact arithmetic. A particle sitting exactly on the upper end of a range, or with two equal lags under the ordered prior, is excluded (probability zero; folding returns the lower end there). In the line model the standard deviations of the continuum run must be positive (in double arithmetic a zero one gives NaN). The penalties are charged for the new state only; since they are never positive this is still balanced."
  },
  {
   "property": "C79",
   "status": "partial",
   "theorems": [
    "Mica.C79_con_likelihood",
    "Mica.C79_con_reconstruction",
    "Mica.C79_line_likelihood",
    "Mica.C79_line_reconstruction_partial",
    "Mica.C79_no_line",
    "Mica.C79_decomposition",
    "Mica.C79_vmap_likelihood",
    "Mica.C79_vmap_reconstruction"
   ],
   "note": "All computations, for all sizes with at least as many points as trend coefficients. The reconstruction of continuum and lines needs a line or a trend: without either it writes one element behind the workspace (C79_no_line)."
  },
  {
   "property": "C80",
   "status": "partial",
   "theorems": [
    "Mica.C80_sum_partial",
    "Mica.C80_mixture_sum_partial",
    "Mica.C80_component_partial",
    "Mica.C80_mixture_component_partial",
    "Mica.C80_band",
    "Mica.C80_mixture_error"
   ],
   "note": "Proved for widths outside the bands around the damping timescale (sum for mixtures: all widths). Negations: in the decomposition's wider band the components do not add up to the line (C80_band); for mixtures the variance is that of the type in TypeTF, which gives NaN errors (C80_mixture_error)."
  },
  {
   "property": "C81",
   "status": "proved",
   "theorems": [
    "Mica.C81_line_continuum",
    "Mica.C81_line_self",
    "Mica.C81_line_pair",
    "Mica.C81_matrix",
    "Mica.C81_matrix_vmap",
    "Mica.C81_no_memory",
    "Mica.C81_scratch"
   ],
   "note": "All array formulas, the scratch arrays with their allocated sizes, and the three assembly functions are modelled; real arithmetic."
  },
  {
   "property": "C82",
   "status": "partial",
   "theorems": [
    "Mica.C82_ranges",
    "Mica.C82_stay_partial",
    "Mica.C82_width_stop",
    "Mica.C82_first_width"
   ],
   "note": "Proved with the positive-lag option off and upper width limits of the later components of at least one day. Negations: an upper width limit below one day stops the program at the first move of that width; a lower limit above 0.01 is not respected for the first component."
  },
  {
   "property": "C83",
   "status": "partial",
   "theorems": [
    "Mica.C83_transfer",
    "Mica.C83_as_line",
    "Mica.C83_likelihood_partial",
    "Mica.C83_documented_partial"
   ],
   "note": "All parameter values outside the bands of C35; data sets with at least one line (the likelihood of data sets without lines is wrong for the same reason as in C25_no_band)."
  },
  {
   "property": "C84",
   "status": "partial",
   "theorems": [
    "Mica.C84_reconstruct",
    "Mica.C84_error_partial"
   ],
   "note": "Prediction, trend coefficients and standard errors for all data sets and covariance functions; that no error is NaN for the transfer functions of the code, with widths outside the bands of C35."
  },
  {
   "property": "C85",
   "status": "partial",
   "theorems": [
    "Mica.C85_nodes_partial",
    "Mica.C85_count",
    "Mica.C85_negative_times"
   ],
   "note": "Holds with two nodes or more if some line ends at a time that is not negative; otherwise the window ends at time zero, proved as C85_negative_times."
  },
  {
   "property": "C86",
   "status": "proved",
   "theorems": [
    "Mica.C86_normalised",
    "Mica.C86_units",
    "Mica.C86_tasks",
    "Mica.C86_constant"
   ],
   "note": "All light curves; constant ones become NaN, proved as C86_constant."
  },
  {
   "property": "C87",
   "status": "partial",
   "theorems": [
    "Mica.C87_any_order_partial",
    "Mica.C87_no_file",
    "Mica.C87_unknown",
    "Mica.C87_missing",
    "Mica.C87_fails_dashes",
    "Mica.C87_fails_long",
    "Mica.C87_fails_colon"
   ],
   "note": "Arguments shorter than 256 characters and no '--'; false otherwise, negations proved."
  },
  {
   "property": "C88",
   "status": "proved",
   "theorems": [
    "Mica.C88_con",
    "Mica.C88_line",
    "Mica.C88_other"
   ],
   "note": "Exact result for every directory name, including the overflow for long ones."
  },
  {
   "property": "C89",
   "status": "partial",
   "theorems": [
    "Mica.C89_sampled",
    "Mica.C89_resumed",
    "Mica.C89_posterior",
    "Mica.C89_reconstructed",
    "Mica.C89_names",
    "Mica.C89_evidence",
    "Mica.C89_decomposed",
    "Mica.C89_same_snapshot",
    "Mica.C89_nothing",
    "Mica.C89_plain",
    "Mica.C89_post_only",
    "Mica.C89_fails_resume_con"
   ],
   "note": "The continuum stage is never resumed with -r (negation proved); directory names short enough."
  },
  {
   "property": "C90",
   "status": "partial",
   "theorems": [
    "Mica.C90_distinct",
    "Mica.C90_sampler_names",
    "Mica.C90_fits_con",
    "Mica.C90_owned",
    "Mica.C90_kept",
    "Mica.C90_fails_weights",
    "Mica.C90_fails_last"
   ],
   "note": "weights.txt, the status file and the list of options are shared by the stages: only the last stage's are left (negation proved for the weights); sampler file names fit only for short directory names."
  },
  {
   "property": "C91",
   "status": "partial",
   "theorems": [
    "Mica.C91_layout",
    "Mica.C91_roundtrip",
    "Mica.C91_restored",
    "Mica.C91_text",
    "Mica.C91_fails_post",
    "Mica.C91_fails_reload"
   ],
   "note": "Names, positions and round trip are proved in full (numbers below 10^50). Missing: the file of a post-processing run is not usable, as proved."
  },
  {
   "property": "C92",
   "status": "partial",
   "theorems": [
    "Mica.C92_all_used_partial",
    "Mica.C92_stale",
    "Mica.C92_lost",
    "Mica.C92_synced",
    "Mica.C92_synced_cases",
    "Mica.C92_fails_stale",
    "Mica.C92_fails_lost"
   ],
   "note": "Holds if the file has exactly the rows counted in the snapshot; otherwise stale rows are used or the run cannot be post-processed (proved). C92_synced says exactly for which numbers of saves the rows of every snapshot are already on disk."
  },
  {
   "property": "C93",
   "status": "proved",
   "theorems": [
    "Mica.C93_invariants",
    "Mica.C93_no_ub",
    "Mica.C93_resumable",
    "Mica.C93_loses_collected"
   ],
   "note": ""
  },
  {
   "property": "C94",
   "status": "proved",
   "theorems": [
    "Mica.C94_con",
    "Mica.C94_line",
    "Mica.C94_transfer",
    "Mica.C94_vmap"
   ],
   "note": "All continuum, line and virtual-continuum likelihoods, any degree of the trend."
  },
  {
   "property": "C95",
   "status": "proved",
   "theorems": [
    "Mica.C95_check",
    "Mica.C95_units",
    "Mica.C95_accepted",
    "Mica.C95_same_data",
    "Mica.C95_not_without_scaling"
   ],
   "note": "Exact arithmetic; with normalisation on nothing depends on the units, with normalisation off a witness shows that it does."
  },
  {
   "property": "C96",
   "status": "proved",
   "theorems": [
    "Mica.C96_labels",
    "Mica.C96_labels_vmap"
   ],
   "note": "All four line likelihoods and both of the mode without continuum; no condition on the parameters."
  },
  {
   "property": "C97",
   "status": "proved",
   "theorems": [
    "Mica.C97_order",
    "Mica.C97_order_vmap",
    "Mica.C97_order_con"
   ],
   "note": "Under the conditions in the statement (positive definite, outside the bands)."
  },
  {
   "property": "C98",
   "status": "proved",
   "theorems": [
    "Mica.C98_rows",
    "Mica.C98_files"
   ],
   "note": "Whenever post-processing succeeds for both orders (C22 says when it does)."
  },
  {
   "property": "C99",
   "status": "partial",
   "theorems": [
    "Mica.C99_memory_partial",
    "Mica.C99_no_leak",
    "Mica.C99_decomp_leak",
    "Mica.C99_never_released",
    "Mica.C99_library_double_free",
    "Mica.C99_ledger"
   ],
   "note": "Never undefined, for every configuration. Full claim fails: three (root: four) blocks are never released, and decomposition loses one row per data set; both proved exactly."
  },
  {
   "property": "C100",
   "status": "partial",
   "theorems": [
    "Mica.C100_values",
    "Mica.C100_line",
    "Mica.C100_con",
    "Mica.C100_stages",
    "Mica.C100_user",
    "Mica.C100_particles_partial",
    "Mica.C100_refused",
    "Mica.C100_refuses_accepted",
    "Mica.C100_exponent",
    "Mica.C100_override",
    "Mica.C100_negative",
    "Mica.C100_comments"
   ],
   "note": "Full for the sampler's reader and the files the program writes. Fails for: the listed defaults, the second reader (single-word lines, empty file, other notations), the independence of the stages (number of particles), negative whole numbers; each with an exact condition or witness."
  },
  {
   "property": "C101",
   "status": "partial",
   "theorems": [
    "Mica.C101_sum_partial",
    "Mica.C101_tasks",
    "Mica.C101_window",
    "Mica.C101_trend"
   ],
   "note": "Missing: non-zero TimeRecLowExt or TimeRecUppExt, which the decomposition ignores (C101_window gives the exact condition); widths inside the bands around the damping timescale where the functions of the decomposition differ (as C80), except for mixtures; data sets without lines."
  },
  {
   "property": "C102",
   "status": "partial",
   "theorems": [
    "Mica.C102_pall",
    "Mica.C102_comp_partial",
    "Mica.C102_comp_ub",
    "Mica.C102_comp_fails",
    "Mica.C102_vmap",
    "Mica.C102_nmap",
    "Mica.C102_printed"
   ],
   "note": "Holds for pall.txt and pcon.txt read by the modes pmap, mmap and gmodel, and for component files with one data set; fails for component files with two or more data sets, for pall.txt in vmap mode and for pcon.txt in nmap mode (negations proved)."
  },
  {
   "property": "C103",
   "status": "proved",
   "theorems": [
    "Mica.C103_files",
    "Mica.C103_short",
    "Mica.C103_use",
    "Mica.C103_good"
   ],
   "note": "Texts of levels, sample_info, sample, posterior_sample files; names of the parameters in headers are not modelled here (C91)."
  },
  {
   "property": "C104",
   "status": "partial",
   "theorems": [
    "Mica.C104_evidence_partial",
    "Mica.C104_fails"
   ],
   "note": "Seven digits of the log-likelihoods and twelve of log X: holds if no sample comes to lie on another side of a threshold by printing; false otherwise (witness C104_fails)."
  },
  {
   "property": "C105",
   "status": "proved",
   "theorems": [
    "Mica.C105_matrices",
    "Mica.C105_square",
    "Mica.C105_vector",
    "Mica.C105_vector_transposed",
    "Mica.C105_vector_transposed_short",
    "Mica.C105_empty",
    "Mica.C105_outer",
    "Mica.C105_inverse",
    "Mica.C105_inverse_room"
   ],
   "note": "BLAS/LAPACK routines by their specification"
  },
  {
   "property": "C106",
   "status": "partial",
   "theorems": [
    "Mica.C106_det",
    "Mica.C106_lndet",
    "Mica.C106_sign",
    "Mica.C106_inverse",
    "Mica.C106_lndet2_partial",
    "Mica.C106_sign2_fails",
    "Mica.C106_chol",
    "Mica.C106_chol_comment_fails"
   ],
   "note": "the sign of lndet_mat2 and the comment of Chol_decomp_U do not hold; both functions are never called"
  },
  {
   "property": "C107",
   "status": "proved",
   "theorems": [
    "Mica.C107_con",
    "Mica.C107_con_leftovers"
   ],
   "note": "continuum likelihood at the level of pointers"
  },
  {
   "property": "C108",
   "status": "proved",
   "theorems": [
    "Mica.C108_line",
    "Mica.C108_leftovers",
    "Mica.C108_value"
   ],
   "note": "line likelihood at the level of pointers"
  },
  {
   "property": "C109",
   "status": "proved",
   "theorems": [
    "Mica.C109_level",
    "Mica.C109_particle_continuum",
    "Mica.C109_particle_line",
    "Mica.C109_continuum",
    "Mica.C109_line",
    "Mica.C109_finite_continuum",
    "Mica.C109_finite_line"
   ],
   "note": "whole step while the weights do not contain the counters (levels being created, or beta = 0); each move separately otherwise"
  },
  {
   "property": "C110",
   "status": "partial",
   "theorems": [
    "Mica.C110_first_partial",
    "Mica.C110_later",
    "Mica.C110_later_wrong",
    "Mica.C110_shared_partial",
    "Mica.C110_pmap",
    "Mica.C110_dims",
    "Mica.C110_dims_iff",
    "Mica.C110_dims_data"
   ],
   "note": "Right for the first data set or common transfer functions; for later data sets the columns of the data set before are returned (negation proved), in photometric mode the columns are shifted."
  },
  {
   "property": "C111",
   "status": "partial",
   "theorems": [
    "Mica.C111_prepare_partial",
    "Mica.C111_steps",
    "Mica.C111_first_only",
    "Mica.C111_other_modes",
    "Mica.C111_restart",
    "Mica.C111_cut"
   ],
   "note": "Holds for gmodel when all numbers of components have the same number of samples. Violated otherwise: the number of saves is taken from the first number of components, and in pmap, vmap, mmap prepare always fails."
  },
  {
   "property": "C112",
   "status": "partial",
   "theorems": [
    "Mica.C112_history_partial",
    "Mica.C112_program_partial",
    "Mica.C112_run_after_post",
    "Mica.C112_run_after_names",
    "Mica.C112_run_after_restart",
    "Mica.C112_vmap"
   ],
   "note": "Holds for every call except run() after another kind of call, and except restart/print_para_names of vmap; for these the violation is proved."
  },
  {
   "property": "C113",
   "status": "partial",
   "theorems": [
    "Mica.C113_lag",
    "Mica.C113_lag_one",
    "Mica.C113_width",
    "Mica.C113_ratio",
    "Mica.C113_gap_partial",
    "Mica.C113_gap_fails",
    "Mica.C113_fits"
   ],
   "note": "Lags (two or more components), widths, one ratio pair, one data set for gaps. Violated for gaps with several data sets, several ratio pairs, lag_prior with one component, and texts that overflow."
  },
  {
   "property": "C114",
   "status": "partial",
   "theorems": [
    "Mica.C114_read_partial",
    "Mica.C114_nmap",
    "Mica.C114_empty",
    "Mica.C114_julian",
    "Mica.C114_two_columns",
    "Mica.C114_four_columns",
    "Mica.C114_format_partial",
    "Mica.C114_format_none_partial",
    "Mica.C114_format_zero",
    "Mica.C114_entries"
   ],
   "note": "Proved for arrays with three columns whose empty light curves come last, to the printed accuracy; the full claim is false: negations proved for empty curves in between, Julian days, two and four columns, small fluxes with format_mica."
  },
  {
   "property": "C115",
   "status": "partial",
   "theorems": [
    "Mica.C115_agree_partial",
    "Mica.C115_tie",
    "Mica.C115_tie_fails",
    "Mica.C115_one_level"
   ],
   "note": "Same evidence and information, effective sample size up to exp(-n*1e-300), when no likelihood equals a threshold, with at least two levels and samples; false otherwise: C115_tie_fails."
  },
  {
   "property": "C116",
   "status": "proved",
   "theorems": [
    "Mica.C116_columns"
   ],
   "note": "All models with components and all sizes."
  },
  {
   "property": "C117",
   "status": "partial",
   "theorems": [
    "Mica.C117_file_partial",
    "Mica.C117_gmodel_partial",
    "Mica.C117_negative",
    "Mica.C117_mmap",
    "Mica.C117_options",
    "Mica.C117_options_on"
   ],
   "note": "Reading the written file equals the C checks on the object's settings; texts longer than 168 characters are cut by fgets and left out. Fails for negative responses, the mixture model and the sampler options (negations proved)."
  },
  {
   "property": "C118",
   "status": "partial",
   "theorems": [
    "Mica.C118_same_partial",
    "Mica.C118_stays",
    "Mica.C118_ratio",
    "Mica.C118_nmap_trend"
   ],
   "note": "Holds when the optional limits and priors are given; otherwise those of earlier calls stay (negations proved)."
  },
  {
   "property": "C119",
   "status": "partial",
   "theorems": [
    "Mica.C119_accepted_partial",
    "Mica.C119_unchecked",
    "Mica.C119_other"
   ],
   "note": "setup has almost none of the checks of read_parset (negations proved)."
  },
  {
   "property": "C120",
   "status": "partial",
   "theorems": [
    "Mica.C120_continuum",
    "Mica.C120_line_partial",
    "Mica.C120_line_fails"
   ],
   "note": "Continuum run: proved. Line run: line parameters (ordered lags included) and fixed ones agree with the prior; free variability parameters do not, proved. Penalties and common lags not covered."
  },
  {
   "property": "C121",
   "status": "partial",
   "theorems": [
    "Mica.C121_reject",
    "Mica.C121_stuck",
    "Mica.C121_run",
    "Mica.C121_outcome",
    "Mica.C121_thresholds",
    "Mica.C121_particles_partial",
    "Mica.C121_saved_fails",
    "Mica.C121_evidence_fails",
    "Mica.C121_evidence",
    "Mica.C121_inf_threshold",
    "Mica.C121_inf_dead"
   ],
   "note": "Proved for all runs without plus infinity except that the first particles are not checked: one with NaN or minus infinity can be saved, and a single such sample makes the effective sample size NaN; both are proved. Plus infinity can become a threshold, and such a level is dead."
  },
  {
   "property": "C122",
   "status": "partial",
   "theorems": [
    "Mica.C122_wrap",
    "Mica.C122_overshoot",
    "Mica.C122_inside",
    "Mica.C122_run_partial",
    "Mica.C122_fails",
    "Mica.C122_run_fails"
   ],
   "note": "The lower limit always holds; the upper can be passed by at most twice the rounding error of the width, only for proposals less than 2^-51 widths below the lower limit; a range and a move that do it are given for every rounding to nearest."
  },
  {
   "property": "C123",
   "status": "partial",
   "theorems": [
    "Mica.C123_draw",
    "Mica.C123_move",
    "Mica.C123_step",
    "Mica.C123_first_partial",
    "Mica.C123_first_fails"
   ],
   "note": "Ranges and invariance of whole steps hold for all prior types; the first particles have the law of the prior for flat and logarithmic priors, and not for Gaussian ones (proved for symmetric ranges of at least two deviations)."
  },
  {
   "property": "C124",
   "status": "partial",
   "theorems": [
    "Mica.C124_complete",
    "Mica.C124_chosen",
    "Mica.C124_plain_partial",
    "Mica.C124_limit_fails"
   ],
   "note": "What is kept and completed is proved for all function sets and sequences of calls; the option -l acts on the default move of the next call instead of its own."
  },
  {
   "property": "C125",
   "status": "proved",
   "theorems": [
    "Mica.C125_rule",
    "Mica.C125_gaps",
    "Mica.C125_at_least",
    "Mica.C125_run"
   ],
   "note": "enough_levels with the number of levels left open, in exact arithmetic; the threshold growths are compared as reals."
  },
  {
   "property": "C126",
   "status": "proved",
   "theorems": [
    "Mica.C126_prior",
    "Mica.C126_likelihood",
    "Mica.C126_evidence",
    "Mica.C126_posterior",
    "Mica.C126_run"
   ],
   "note": "Separate runs use the same ranges and the results of the continuum stage of their own data sets; exact arithmetic; measurability and computability of the likelihoods on the allowed region are hypotheses."
  },
  {
   "property": "C127",
   "status": "partial",
   "theorems": [
    "Mica.C127_call",
    "Mica.C127_asked_partial",
    "Mica.C127_order_partial",
    "Mica.C127_calls",
    "Mica.C127_refused",
    "Mica.C127_fails_order",
    "Mica.C127_fails_again",
    "Mica.C127_fails_compression",
    "Mica.C127_action"
   ],
   "note": "Violated by the code: -t before -p loses the temperature, -m stays for later calls, a non-positive compression is accepted. The exact effect of every call is proved."
  },
  {
   "property": "C128",
   "status": "partial",
   "theorems": [
    "Mica.C128_columns",
    "Mica.C128_exact",
    "Mica.C128_transfer_partial",
    "Mica.C128_pmap",
    "Mica.C128_pmap_exact",
    "Mica.C128_pmap_partial",
    "Mica.C128_pmap_fails",
    "Mica.C128_rows",
    "Mica.C128_runs",
    "Mica.C128_runs_mmap"
   ],
   "note": "Violated in photometric mode with gamma or exponential functions, at the onset of exponential functions, and in the choice of results in the mixture model; exact results are proved for these."
  },
  {
   "property": "C129",
   "status": "proved",
   "theorems": [
    "Mica.C129_centroid",
    "Mica.C129_centroid_pmap",
    "Mica.C129_between",
    "Mica.C129_limits",
    "Mica.C129_order",
    "Mica.C129_shift"
   ],
   "note": "Real arithmetic; rounding of the printed numbers is not modelled."
  },
  {
   "property": "C130",
   "status": "partial",
   "theorems": [
    "Mica.C130_panels",
    "Mica.C130_trend",
    "Mica.C130_nmap_partial",
    "Mica.C130_nmap_fails",
    "Mica.C130_decomp_partial",
    "Mica.C130_decomp_sets",
    "Mica.C130_decomp_mean",
    "Mica.C130_decomp_tran_partial",
    "Mica.C130_decomp_exp"
   ],
   "note": "plotfig.py: proved for all files outside the mode nmap with empty light curves; plotdecomp.py: violated with two or more data sets, for means with negative responses and exponential functions in photometric mode."
  },
  {
   "property": "C131",
   "status": "proved",
   "theorems": [
    "Mica.C131_continuum",
    "Mica.C131_line"
   ],
   "note": "Any start, any target, any level above whose threshold the target is; virtual-continuum mode excluded (C51_frozen)."
  },
  {
   "property": "C132",
   "status": "partial",
   "theorems": [
    "Mica.C132_shapes_partial",
    "Mica.C132_tophat",
    "Mica.C132_ratios",
    "Mica.C132_area",
    "Mica.C132_circular",
    "Mica.C132_response",
    "Mica.C132_simlc"
   ],
   "note": "Proved except that a top hat is entered by its full width while the fitted model uses the half width (C132_tophat)."
  },
  {
   "property": "C133",
   "status": "partial",
   "theorems": [
    "Mica.C133_psd",
    "Mica.C133_cov_partial",
    "Mica.C133_variance",
    "Mica.C133_fails"
   ],
   "note": "Mean and covariance are proved exactly; the variance claim is false (C133_fails): the normalisation is W=10 times too small."
  },
  {
   "property": "C134",
   "status": "partial",
   "theorems": [
    "Mica.C134_con",
    "Mica.C134_line",
    "Mica.C134_vmap",
    "Mica.C134_mixture_partial",
    "Mica.C134_mixture_fails",
    "Mica.C134_prior_partial",
    "Mica.C134_prior_fails",
    "Mica.C134_prior_empty"
   ],
   "note": "Likelihoods proved for one type of transfer function and, away from the absolute threshold EPS, for mixtures. The prior ranges of damping time and amplitude are absolute numbers; negations proved."
  },
  {
   "property": "C135",
   "status": "proved",
   "theorems": [
    "Mica.C135_con_line",
    "Mica.C135_lines",
    "Mica.C135_line_self",
    "Mica.C135_posdef",
    "Mica.C135_likelihood"
   ],
   "note": "error bounds in the band for one type of transfer function; mixed pairs only outside the threshold of their formula"
  },
  {
   "property": "C136",
   "status": "proved",
   "theorems": [
    "Mica.C136_likelihood",
    "Mica.C136_vmap",
    "Mica.C136_prior"
   ],
   "note": "Prior part for type_lag_prior 0; with fixed lags or lag windows the larger model's lags are others. Penalties for negative lags and gaps not included."
  },
  {
   "property": "C137",
   "status": "proved",
   "theorems": [
    "Mica.C137_line",
    "Mica.C137_con"
   ],
   "note": "About the data as the likelihoods get them (after normalisation by the mean flux, which the average changes slightly)."
  },
  {
   "property": "C138",
   "status": "partial",
   "theorems": [
    "Mica.C138_con_partial",
    "Mica.C138_line_partial",
    "Mica.C138_transfer_partial",
    "Mica.C138_vmap_partial",
    "Mica.C138_fails"
   ],
   "note": "Proved when no total error grows; false otherwise: the systematic error is a multiple of the mean measurement error (C138_fails). Data sets with at least one line in the line stage."
  },
  {
   "property": "C139",
   "status": "partial",
   "theorems": [
    "Mica.C139_con",
    "Mica.C139_con_limit",
    "Mica.C139_line_partial",
    "Mica.C139_line_limit_partial"
   ],
   "note": "Proved in full for the continuum stage; for lines outside the band around the damping timescale and with noise in all measurements."
  },
  {
   "property": "C140",
   "status": "proved",
   "theorems": [
    "Mica.C140_con",
    "Mica.C140_line",
    "Mica.C140_vmap",
    "Mica.C140_exp_fails"
   ],
   "note": "Exact in real arithmetic, including mixtures of Gaussian and top-hat components and any number of lines."
  },
  {
   "property": "C141",
   "status": "proved",
   "theorems": [
    "Mica.C141_range",
    "Mica.C141_held",
    "Mica.C141_single",
    "Mica.C141_ratio"
   ],
   "note": "Sample as read back; double arithmetic of logH without rounding."
  },
  {
   "property": "C142",
   "status": "proved",
   "theorems": [
    "Mica.C142_order",
    "Mica.C142_shift"
   ],
   "note": "Whole runs; C142_shift includes automatic levels and the postprocess."
  },
  {
   "property": "C143",
   "status": "partial",
   "theorems": [
    "Mica.C143_name",
    "Mica.C143_mix",
    "Mica.C143_file_mix",
    "Mica.C143_file_partial",
    "Mica.C143_unknown",
    "Mica.C143_digit"
   ],
   "note": "Names in Python, digits of mixtures and the numbers 0 to 3 select the documented functions in likelihood and figures. Other numbers, and digits given to other classes, are accepted and silently mean exponential or Gaussian functions (C143_unknown, C143_digit)."
  },
  {
   "property": "C144",
   "status": "proved",
   "theorems": [
    "Mica.C144_weights",
    "Mica.C144_evidence",
    "Mica.C144_accuracy",
    "Mica.C144_all"
   ],
   "note": "exact formula for the reported evidence, and its distance from the sum of prior mass times mean likelihood"
  },
  {
   "property": "C145",
   "status": "partial",
   "theorems": [
    "Mica.C145_run_partial",
    "Mica.C145_flag",
    "Mica.C145_null",
    "Mica.C145_names",
    "Mica.C145_file",
    "Mica.C145_before",
    "Mica.C145_mixture",
    "Mica.C145_con"
   ],
   "note": "holds for computing calls after setup (one number of components for mixtures); the rest is false, see C145_names, C145_file, C145_before, C145_mixture"
  },
  {
   "property": "C146",
   "status": "proved",
   "theorems": [
    "Mica.C146_con_refines",
    "Mica.C146_line_refines",
    "Mica.C146_con",
    "Mica.C146_line",
    "Mica.C146_con_safe",
    "Mica.C146_line_safe",
    "Mica.C146_posterior",
    "Mica.C146_posterior_line"
   ],
   "note": "doubles are reals, likelihood any function with values of at least the lowest double; the option of positive lags is excluded (C47 tells what it breaks), and the velocity-resolved model has its own moves"
  },
  {
   "property": "C147",
   "status": "proved",
   "theorems": [
    "Mica.C147_con",
    "Mica.C147_line",
    "Mica.C147_con_order",
    "Mica.C147_con_call",
    "Mica.C147_line_call",
    "Mica.C147_used_con",
    "Mica.C147_used_line"
   ],
   "note": "All of it for the continuum and line models; the case inside a round that is excepted in the statement is left exactly as C147_con_call and C147_line_call say."
  },
  {
   "property": "C148",
   "status": "proved",
   "theorems": [
    "Mica.C148_masses",
    "Mica.C148_bounds",
    "Mica.C148_gibbs",
    "Mica.C148_hotter",
    "Mica.C148_temper",
    "Mica.C148_con",
    "Mica.C148_line"
   ],
   "note": "on the reals; the evidence is that of the samples handed to postprocess"
  },
  {
   "property": "C149",
   "status": "partial",
   "theorems": [
    "Mica.C149_vmap_partial",
    "Mica.C149_vmap_safe",
    "Mica.C149_frozen",
    "Mica.C149_con",
    "Mica.C149_line",
    "Mica.fwhole_run"
   ],
   "note": "Partial: the continuum parameters are not sampled in the virtual-continuum mode (C149_frozen); every data set needs a line, the positive-lag option must be off, ordered lags need a range starting at zero."
  },
  {
   "property": "C150",
   "status": "partial",
   "theorems": [
    "Mica.C150_pmap_partial",
    "Mica.C150_posterior_partial",
    "Mica.C150_stop"
   ],
   "note": "Partial: with an upper width limit below one day for a later component the program stops (C150_stop), a lower limit above 0.01 does not hold for the first component, and the positive-lag option must be off."
  },
  {
   "property": "C151",
   "status": "partial",
   "theorems": [
    "Mica.C151_text",
    "Mica.C151_full",
    "Mica.C151_run_partial",
    "Mica.C151_rec",
    "Mica.C151_endless",
    "Mica.C151_overflow",
    "Mica.C151_rec_empty",
    "Mica.C151_init",
    "Mica.C151_session",
    "Mica.C151_resumed"
   ],
   "note": "Partial: without a limit on the saves the bar divides by zero (C151_endless), from 21474837 saves on it overflows (C151_overflow), and an empty posterior sample divides by zero (C151_rec_empty). The first bar of a resumed session shows 0 samples (C151_resumed)."
  },
  {
   "property": "C152",
   "status": "partial",
   "theorems": [
    "Mica.C152_needs",
    "Mica.C152_start",
    "Mica.C152_here_partial",
    "Mica.C152_refused",
    "Mica.C152_elsewhere",
    "Mica.C152_unnamed",
    "Mica.C152_no_ub",
    "Mica.C152_check",
    "Mica.C152_python",
    "Mica.C152_python_gone"
   ],
   "note": "False for a FileDir other than the current directory and for a missing FileDir (negations proved); permissions and links are not modelled."
  },
  {
   "property": "C153",
   "status": "partial",
   "theorems": [
    "Mica.C153_exact",
    "Mica.C153_own_partial",
    "Mica.C153_other_settings",
    "Mica.C153_overrun",
    "Mica.C153_other_prior",
    "Mica.C153_refused",
    "Mica.C153_refused_stays",
    "Mica.C153_long_name",
    "Mica.C153_evidence_label",
    "Mica.C153_evidence_unwritten",
    "Mica.C153_evidence_overrun"
   ],
   "note": "What a run uses is given exactly for every session; the claim holds for an object used alone without exceptions. It is false in general: settings and prior file are shared by all objects, the array of evidences can be overrun, and a refused prior file stays in force."
  }
 ]
}