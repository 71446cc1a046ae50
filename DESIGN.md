# Formal model of MICA2: design

Source: `/repo` (LiyrAstroph/MICA2, C; sampler library in `/repo/cdnest`).  Nothing of it is built or run; it is
read as text.  The model is in Lean 4 (`/verif/lean/Verif`), with Mathlib; `lake build` in `/verif/lean`.

## Layout

* `Verif/Model/*`  the model, function by function; every definition cites file and lines.
* `Verif/Spec/*`   small specifications, stated without the helpers of the model.
* `Verif/Proof/*`  helper lemmas.
* `Verif/Props/*`  the property theorems (`C01_…` to `C153_…`), each with an example that meets its hypotheses.
* `properties.jsonl` the properties in English, `MANIFEST.json` their status and theorems,
  `seeded/LOG.jsonl` the wrong programs tried against the theorems.

Conventions: a theorem whose name ends in `_partial` proves the property under a condition named in its comment; a theorem
whose name describes an exception (e.g. `C26_no_line`) proves, with a concrete witness, that the full property is false
for the code.

## Trusted base

1. **Lean's kernel** (4.33.0) and the standard axioms. `#print axioms` of the property theorems gives:
   641 of them {propext, Classical.choice, Quot.sound}; 12 of them {propext, Quot.sound}; 5 of them {}; 1 of them {propext}.
   No own axioms, no `sorry`, no `native_decide`, no `bv_decide`, no `implemented_by`.
2. **The transcription** of C into Lean definitions, including the line numbers cited and the following idealisations.
   * `double` is ℝ, and comparisons are those of ℝ.  Where NaN or infinity decides a property the type `Fl`
     (`Verif/Model/Vmap.lean`) or an `Option` (square root of a negative number) is used, and `±DBL_MAX` is kept where the code uses
     it.  Rounding errors, overflow and underflow of floating-point numbers are not modelled.
   * `int` and `unsigned` counters are ℕ or ℤ; where a 32-bit wrap or overflow is reachable it is modelled
     (restart file, save interval, thread steps, elapsed time).
   * Random numbers are inputs: theorems hold for every value the generator could return.  Where a distribution matters
     (C78) uniform and normal variates have their textbook laws.
   * MPI: tasks are lists; collectives are modelled by their specification; between collectives tasks are
     independent.  No message is lost, no task dies.
   * BLAS, LAPACK and GSL by the mathematical meaning of the call (product, LU/Cholesky inverse, determinant, `erfc`), except the
     pivoting of `dsytrf`, which is written out (C60).  `qsort` as glibc's merge sort (C12).
   * `atof`, `%lf`, `sscanf` of numbers as functions from text given as parameters; white space, lines and tokens are modelled
     on characters.
   * Undefined behaviour (out-of-range access, null pointers, uninitialised reads, signed overflow), program exit
     and endless loops are distinct outcomes (`Res`).  Memory is per array: an access outside its array is `ub`, not an effect
     on another one.  `malloc` succeeds; files can be opened and written.
3. The English of `properties.jsonl` against the Lean statements: by reading.

## What is modelled


Functions of the code with a counterpart in the model (computed from the citations in `Verif/Model`), and those without:

| file | modelled | not modelled |
|---|---|---|
| `cdnest/dnest.c` | `dnest`, `dnest_postprocess`, `dnest_run`, `do_bookkeeping`, `recalculate_log_X`, `renormalise_visits`, `kill_lagging_particles`, `save_levels`, `save_limits`, `save_particle`, `dnest_mcmc_run`, `update_particle`, `update_level_assignment`, `log_push`, `enough_levels`, `initialize_output_file`, `setup`, `finalise`, `options_load`, `mod`, `dnest_wrap`, `wrap_limit`, `mod_int`, `dnest_randh`, `dnest_rand`, `dnest_rand_int`, `dnest_randn`, `dnest_cmp`, `dnest_get_posterior_sample_file`, `dnest_get_limit`, `dnest_check_version`, `dnest_check_fptrset`, `dnest_malloc_fptrset`, `dnest_check_directory`, `dnest_save_restart`, `dnest_restart`, `dnest_from_prior`, `dnest_perturb`, `dnest_perturb_limit` | `close_output_file`, `dnest_search_pardict`, `dnest_get_size_levels`, `dnest_get_which_level_update`, `dnest_get_which_particle_update`, `dnest_get_which_num_saves`, `dnest_get_count_saves`, `dnest_free_fptrset`, `dnest_print_particle`, `dnest_read_particle`, `dnest_restart_action`, `dnest_accept_action`, `dnest_kill_action` |
| `cdnest/dnestpostprocess.c` | `logdiffexp`, `logsumexp`, `postprocess`, `cmp_sample` | — |
| `cdnest/progress-bar.c` | `pb_init`, `pb_update`, `showPercent`, `showCount`, `pb_print` | getters and setters |
| `src/dnest_con.c` | `dnest_con`, `set_par_range_con`, `from_prior_con`, `print_particle_con`, `perturb_con`, `read_particle_con` | `log_likelihoods_cal_con`, `log_likelihoods_cal_initial_con`, `log_likelihoods_cal_restart_con`, `restart_action_con`, `kill_action_con`, `accept_action_con` |
| `src/dnest_line.c` | `dnest_line`, `set_idx_line_pm`, `get_idx_set`, `set_center_width`, `set_par_range_line`, `print_para_names_line`, `from_prior_line`, `print_particle_line`, `perturb_line_prior0`, `perturb_line_prior1`, `check_gauss_center`, `check_positivity`, `check_gap`, `get_num_params_line`, `read_particle_line`, `mica_cmp` | `log_likelihoods_cal_line`, `log_likelihoods_cal_initial_line`, `log_likelihoods_cal_restart_line`, `restart_action_line`, `kill_action_line`, `accept_action_line` |
| `src/dnest_mmap.c` | `dnest_mmap`, `from_prior_mmap`, `print_particle_mmap`, `perturb_mmap_prior0`, `perturb_mmap_prior1`, `read_particle_mmap` | `log_likelihoods_cal_mmap`, `log_likelihoods_cal_initial_mmap`, `log_likelihoods_cal_restart_mmap`, `get_num_params_mmap`, `restart_action_mmap`, `kill_action_mmap`, `accept_action_mmap` |
| `src/dnest_pmap.c` | `dnest_pmap`, `set_par_range_pmap`, `print_para_names_pmap`, `from_prior_pmap`, `print_particle_pmap`, `perturb_pmap`, `read_particle_pmap` | `log_likelihoods_cal_pmap`, `log_likelihoods_cal_initial_pmap`, `log_likelihoods_cal_restart_pmap`, `get_num_params_pmap`, `restart_action_pmap`, `kill_action_pmap`, `accept_action_pmap` |
| `src/dnest_vmap.c` | `dnest_vmap`, `set_par_range_vmap`, `print_para_names_vmap`, `from_prior_vmap`, `print_particle_vmap`, `log_likelihoods_cal_vmap`, `log_likelihoods_cal_initial_vmap`, `log_likelihoods_cal_restart_vmap`, `perturb_vmap_prior0`, `perturb_vmap_prior1`, `read_particle_vmap` | `get_num_params_vmap`, `restart_action_vmap`, `kill_action_vmap`, `accept_action_vmap` |
| `src/error.c` | `error_exit` | — |
| `src/init.c` | `init`, `allocate_memory`, `free_memory`, `write_options_con`, `write_options_line`, `set_argv`, `set_prior_file`, `load_par_names`, `set_drw_par_range_load` | — |
| `src/line_decomp.c` | `output_decompose_line_parallel`, `decompose_single_component`, `set_covar_Umat_line_single`, `set_covar_Amat_line_single`, `Slc_single_gauss`, `Slc_single_gauss_linear`, `Sll2_single_gauss`, `Sll2_single_gauss_linear`, `Sll_single_gauss`, `Sll_single_gauss_linear`, `Sll_single2_gauss`, `Sll_single2_gauss_linear`, `Slc_single_tophat`, `Slc_single_tophat_linear`, `Sll2_single_tophat`, `Sll2_single_tophat_linear`, `Sll_single_tophat`, `Sll_single_tophat_linear`, `Sll_single2_tophat`, `Sll_single2_tophat_linear`, `Slc_single_gamma`, `Slc_single_gamma_linear`, `Sll2_single_gamma`, `Sll2_single_gamma_linear`, `Sll_single_gamma`, `Sll_single_gamma_linear`, `Sll_single2_gamma`, `Sll_single2_gamma_linear`, `Slc_single_exp`, `Slc_single_exp_linear`, `Sll2_single_exp`, `Sll2_single_exp_linear`, `Sll_single_exp`, `Sll_single_exp_linear`, `Sll_single2_exp`, `Sll_single2_exp_linear` | `output_decompose_line` |
| `src/line_decomp_mmap.c` | `output_decompose_line_parallel_mmap`, `decompose_single_component_mmap`, `set_covar_Umat_line_single_mmap`, `set_covar_Amat_line_single_mmap`, `Slc_single_mmap`, `Sll_single_mmap`, `Sll2_single_mmap` | — |
| `src/main.c` | `main` | — |
| `src/mathfun.c` | `multiply_mat`, `multiply_mat_transposeA`, `multiply_mat_transposeB`, `multiply_mat_MN`, `multiply_mat_MN_alpha_beta`, `multiply_mat_MN_transposeA`, `multiply_mat_MN_transposeA_alpha_beta`, `multiply_mat_MN_transposeB`, `multiply_mat_MN_transposeB_alpha_beta`, `multiply_matvec`, `multiply_matvec_transposeA`, `multiply_matvec_MN`, `multiply_matvec_MN_alpha_beta`, `multiply_matvec_MN_transposeA`, `multiply_matvec_MN_transposeA_alpha_beta`, `multiply_mat_MN_inverseA`, `inverse_mat`, `inverse_mat_lndet`, `inverse_symat`, `inverse_symat_lndet`, `inverse_symat_lndet_sign`, `multiply_vec2mat`, `det_mat`, `lndet_mat`, `lndet_mat2`, `lndet_mat3`, `Chol_decomp_U`, `array_malloc`, `compute_semiseparable_drw`, `multiply_matvec_semiseparable_drw`, `multiply_mat_semiseparable_drw`, `multiply_mat_transposeB_semiseparable_drw`, `inverse_symat_partition`, `inverse_symat_partition_inv`, `inverse_symat_lndet_partition_inv`, `inverse_symat_lndet_partition_inv_fast`, `inverse_symat_partition_iter`, `inverse_symat_lndet_partition_inv_semiseparable`, `inverse_semiseparable`, `inverse_semiseparable_iter` | `eigen_sym_mat`, `display_mat` |
| `src/mc_con.c` | `mc_con`, `recostruct_con_from_varmodel`, `recostruct_con_from_varmodel_semiseparable`, `postprocess_con`, `prob_con_variability`, `prob_con_variability_semiseparable`, `mc_con_init`, `mc_con_end`, `set_covar_Pmat_data`, `set_covar_Umat` | — |
| `src/mc_line.c` | `mc_line`, `output_reconstruction_parallel`, `output_reconstruction`, `postprocess_line`, `reconstruct_line_from_varmodel2`, `reconstruct_line_from_varmodel`, `reconstruct_line_from_varmodel3`, `prob_line_variability`, `prob_line_variability2`, `prob_line_variability3`, `prob_line_variability4`, `mc_line_init`, `mc_line_end`, `set_covar_Pmat_data_line`, `set_covar_Pmat_data_line_array`, `set_covar_Umat_line`, `set_covar_Amat_line`, `Sll_gauss`, `Sll_gauss_linear`, `Sll_array_gauss`, `Sll_array_gauss_linear`, `Sll2_gauss`, `Sll2_gauss_linear`, `Sll2_array_gauss`, `Sll2_array_gauss_linear`, `Slc_gauss`, `Slc_gauss_linear`, `Slc_array_gauss`, `Slc_array_gauss_linear`, `Slc_tophat`, `Slc_tophat_linear`, `Slc_array_tophat`, `Slc_array_tophat_linear`, `Sll_tophat`, `Sll_tophat_linear`, `Sll_array_tophat`, `Sll_array_tophat_linear`, `Sll2_tophat`, `Sll2_tophat_linear`, `Sll2_array_tophat`, `Sll2_array_tophat_linear`, `Slc_gamma`, `Slc_gamma_linear`, `Slc_array_gamma`, `Slc_array_gamma_linear`, `Sll_gamma`, `Sll_gamma_linear`, `Sll_array_gamma`, `Sll_array_gamma_linear`, `Sll2_gamma`, `Sll2_gamma_linear`, `Sll2_array_gamma`, `Sll2_array_gamma_linear`, `Slc_exp`, `Slc_exp_linear`, `Slc_array_exp`, `Slc_array_exp_linear`, `Sll_exp`, `Sll_exp_linear`, `Sll_array_exp`, `Sll_array_exp_linear`, `Sll2_exp`, `Sll2_exp_linear`, `Sll2_array_exp`, `Sll2_array_exp_linear` | `output_reconstruction2`, `check_flux`, `test_covariance`, `test_gamma`, `test_exp`, `test_gauss`, `test_tophat` |
| `src/mc_mmap.c` | `mc_mmap`, `postprocess_mmap`, `output_reconstruction_parallel_mmap`, `reconstruct_line_from_varmodel_mmap`, `mc_mmap_init`, `mc_mmap_end`, `prob_line_variability_mmap`, `set_covar_Pmat_data_line_array_mmap`, `set_covar_Umat_line_mmap`, `set_covar_Amat_line_mmap`, `Slc_mmap`, `Slc_gauss_mmap`, `Slc_gamma_mmap`, `Slc_exp_mmap`, `Slc_tophat_mmap`, `Sll_mmap`, `Sll_gau_gau`, `Sll_gau_exp`, `Sll_gau_gam`, `Sll_gam_gam`, `Sll_gam_gau`, `Sll_gam_exp`, `Sll_exp_exp`, `Sll_exp_gau`, `Sll_exp_gam`, `Sll_tophat_tophat`, `Sll_gau_tophat`, `Sll_tophat_gau`, `Sll_exp_tophat`, `Sll_tophat_exp`, `Sll_tophat_gam`, `Sll_gam_tophat`, `Sll2_mmap`, `Slc_array_mmap`, `Slc_array_gauss_mmap`, `Slc_array_gamma_mmap`, `Slc_array_exp_mmap`, `Slc_array_tophat_mmap`, `Sll_array_mmap`, `Sll_array_gau_gau`, `Sll_array_gam_gam`, `Sll_array_exp_exp`, `Sll_array_gau_exp`, `Sll_array_exp_gau`, `Sll_array_gau_gam`, `Sll_array_gam_gau`, `Sll_array_exp_gam`, `Sll_array_gam_exp`, `Sll_array_tophat_tophat`, `Sll_array_gau_tophat`, `Sll_array_tophat_gau`, `Sll_array_tophat_exp`, `Sll_array_exp_tophat`, `Sll_array_tophat_gam`, `Sll_array_gam_tophat`, `Sll2_array_mmap`, `Sll2_array_gau_gau`, `Sll2_array_gau_gam`, `Sll2_array_gau_exp`, `Sll2_array_gam_gam`, `Sll2_array_gam_gau`, `Sll2_array_gam_exp`, `Sll2_array_exp_exp`, `Sll2_array_exp_gau`, `Sll2_array_exp_gam`, `Sll2_array_tophat_tophat`, `Sll2_array_gau_tophat`, `Sll2_array_tophat_gau`, `Sll2_array_exp_tophat`, `Sll2_array_tophat_exp`, `Sll2_array_tophat_gam`, `Sll2_array_gam_tophat` | `test_mix` |
| `src/mc_pmap.c` | `mc_pmap`, `mc_pmap_init`, `mc_pmap_end`, `transform_response_ratio`, `transform_response_ratio_inplace`, `prob_line_variability4_pmap` | — |
| `src/mc_vmap.c` | `mc_vmap`, `postprocess_vmap`, `mc_vmap_init`, `mc_vmap_end`, `prob_line_variability3_vmap`, `prob_line_variability4_vmap`, `set_covar_Pmat_data_line_array_vmap`, `output_reconstruction_vmap_parallel`, `output_reconstruction_vmap`, `reconstruct_line_from_varmodel_vmap`, `set_covar_Pmat_data_line_vmap`, `set_covar_Umat_line_vmap`, `set_covar_Amat_line_vmap` | — |
| `src/mpifunc.c` | — | `set_mpi` |
| `src/mygetopt.c` | `is_option`, `my_getopt`, `my_getopt_internal`, `my_getopt_shortopts`, `main` | `my_getopt_error`, `check_gnu_extension`, `my_getopt_long`, `my_getopt_long_only`, `my_getopt_longopts`, `print_opts`, `test_short`, `test_long`, `copy_argv`, `free_argv` |
| `src/read.c` | `set_parset`, `get_parset`, `read_parset`, `read_data`, `cal_mean_error`, `scale_con_line`, `get_num_particles`, `cmpfunc`, `get_seasonal_gap`, `get_seasonal_gap_allset`, `check_time_sorted` | `set_param_file` |
| `src/run.c` | `begin_run`, `end_run` | — |
| `src/system.c` | `second`, `timediff`, `get_hms` | — |
| `src/version.c` | — | `print_version` |

Remarks on the second column.  `_linear` variants and functions that the loops of another one contain word for word are
covered by the definition that cites them.  Functions never called (`output_reconstruction`, `output_reconstruction2`,
`output_reconstruction_vmap`, `output_decompose_line`, `check_flux`, `test_*`, `eigen_sym_mat`) are left out.  Callbacks that only forward to a modelled function (`log_likelihoods_cal_*`) or do nothing (`kill_action_*`,
`restart_action_*`) and pure printing are left out.


## Properties

For each property: what is modelled and how it is proved; status; theorems; what is missing.

* **C01 Wrapping a proposal into a prior range** (proved) — `mod`, `dnest_wrap` over the reals. Direct proof by floor arithmetic.
  Theorems: `C01_wrap_range`, `C01_wrap_id`, `C01_wrap_unique`, `C01_wrap_degenerate`, `C01_limit`.
  Note: Real arithmetic.
* **C02 Wrapping an index proposal** (proved) — `mod_int` over Int with C's truncated `%`. Case analysis on sign.
  Theorems: `C02_modInt`, `C02_modInt_eq_emod`.
  Note: No int overflow.
* **C03 Parameters never leave their prior ranges** (proved) — Perturbation step `perturb_con` as a function of (chosen index, step); induction over list of steps.
  Theorems: `C03_in_prior`, `C03_total`.
  Note: Continuum model; all random streams, widths, accept/reject histories.
* **C04 Fixed parameters stay at their fixed value** (proved) — Same model as C03.
  Theorems: `C04_fixed`.
  Note: Continuum model.
* **C05 Nested-sampling level thresholds never decrease** (proved) — Full sampler state machine (multi-task): invariant by induction over steps.
  Theorems: `C05_thresholds`, `C05_kept`.
  Note: likelihood assumed to be at least -DBL_MAX (no NaN, no -inf)
* **C06 Each particle satisfies the likelihood constraint of its level** (proved) — Same sampler machine; inductive invariant.
  Theorems: `C06_constraint`.
  Note: same assumption on the likelihood as C05
* **C07 A particle's stored likelihood is the likelihood of its stored parameters** (proved) — Same sampler machine; inductive invariant.
  Theorems: `C07_current`.
  Note: same assumption on the likelihood as C05
* **C08 Counter consistency** (proved) — Same machine; invariant on per-task deltas, merge, renormalise.
  Theorems: `C08_counts`.
  Note: same assumption on the likelihood as C05
* **C09 Merging of task counts loses and duplicates nothing** (proved) — Model of the gather loop as nested fold; closed form proved by induction over tasks.
  Theorems: `C09_merge`.
  Note: in a round without renormalisation (which only follows creation of the last level)
* **C10 Prior-mass estimates decrease** (proved) — `recalculate_log_X` as recursion over the reals, monotonicity of log.
  Theorems: `C10_recurrence`, `C10_decreasing`.
  Note: positive regularisation, compression >= 1
* **C11 A new level is the requested quantile** (proved) — `do_bookkeeping` level creation on lists with the modelled merge sort.
  Theorems: `C11_quantile`.
* **C12 The sort used for quantiles sorts** (proved) — Bottom-up model of merge sort calling a 0/1 comparator; sorted + permutation.
  Theorems: `C12_sort`, `C12_not_iso`.
  Note: for glibc's merge sort; C12_not_iso shows that the comparator is not valid for an arbitrary ISO C qsort
* **C13 Buffers for collected likelihoods are never overrun** (partial) — Buffer lengths as explicit outcome (`overflow` is a distinct result); invariant on sizes.
  Theorems: `C13_no_ub_partial`, `C13_merged_buffer_partial`, `C13_compression_one`, `C13_zero_steps`, `C13_task_buffer`.
  Note: Proved for compression > 1 (no out-of-range access in any execution) and compression >= 6/5 (merged buffer large enough). The full claim is false: compression 1 and zero thread steps are accepted by the option reader and give undefined behaviour.
* **C14 Replacement of lagging particles is sound** (proved) — `kill_lagging_particles` with explicit random choices; postcondition for all inputs.
  Theorems: `C14_replacement`, `C14_total`.
  Note: Totality is stated as: random choices that end the loop always exist.
* **C15 Step-width limits enclose what was visited and are nested** (proved) — `limits` update and merge loops; induction.
  Theorems: `C15_recorded`, `C15_task_widens`, `C15_round_widens`, `C15_nested`.
* **C16 A run stops after exactly the requested number of saves** (partial) — Control skeleton of `dnest_run`: counters only; invariant + termination measure.
  Theorems: `C16_stops`, `C16_exact_partial`, `C16_terminates`, `C16_overflow`.
  Note: Stopping at exactly the requested number holds always; one save per interval holds without 32-bit overflow of saves*interval; with overflow it is false.
* **C17 A restart file restores the saved sampler state** (partial) — Byte-level writer/reader of the restart file; round trip. The step counter is truncated to 32 bits: negation with witness and `_partial` theorem for counts < 2^31.
  Theorems: `C17_roundtrip_partial`, `C17_long_run`.
  Note: Reading back a restart file gives the saved state when the 64-bit step counter fits in 32 bits; C17_long_run shows the counter (and so the state) is not restored for longer runs, because only 4 bytes are written. The likelihood pool of the non-root tasks is empty at save time, the pool kept by each task is not part of the file.
* **C18 Restart keeps the sampler invariants** (proved) — `dnest_restart` clamping loops; postcondition; reports the underflow outcome.
  Theorems: `C18_invariants`, `C18_changed_levels`, `C18_underflow`.
  Note: Invariants hold after restart with the same and with a changed level limit; C18_underflow exhibits the undefined read when the recomputed likelihood is below the first level.
* **C19 Log-sum-exp is exact and safe** (proved) — `logsumexp` over reals.
  Theorems: `C19_logsumexp`, `C19_shift`.
  Note: Real arithmetic.
* **C20 Posterior weights form a probability distribution** (proved) — Weight computation of `postprocess` over reals.
  Theorems: `C20_distribution`, `C20_shift`.
  Note: The weights column of weights.txt is relative to the largest weight; the normalised probabilities are shown to sum to one.
* **C21 Effective sample size lies between 1 and the number of samples** (proved) — Entropy bounds via Gibbs/Jensen inequality.
  Theorems: `C21_ess`.
* **C22 Posterior samples are actual saved samples** (proved) — Rejection-resampling loop with explicit random numbers.
  Theorems: `C22_samples`, `C22_terminates`, `C22_file`.
  Note: Random numbers are inputs; termination when they keep returning to every sample.
* **C23 Every sample gets a finite prior mass** (partial) — Extended-float model (finite/inf/NaN); negation with witness (exactly one sample in a level), `_partial` theorem otherwise.
  Theorems: `C23_prior_mass_partial`, `C23_lone_sample`, `C23_order`, `C23_sandwich`, `C23_recalculated`.
  Note: Finite prior mass for every sample; log X is not a number for a sample alone in its level (C23_lone_sample), a defect of the code.
* **C24 Fast continuum solver solves the right system** (proved) — Recurrences of `compute_semiseparable_drw` over reals; induction on n.
  Theorems: `C24_solver`, `C24_solver_matrix`, `C24_inverse`, `C24_needs_noise`.
  Note: Semiseparable solver, over the reals: for strictly positive noise the stored factors give the inverse, the solution and the log-determinant of the dense covariance; without noise and with two equal times the factorisation breaks down.
* **C25 Block inversion equals the inverse** (partial) — Block partition and the iteration over bands on Mathlib block matrices (`Model/BlockInv`); induction on the number of bands; Schur complements. The case without band is a separate definition.
  Theorems: `C25_partition`, `C25_iter_partial`, `C25_iter_posdef_partial`, `C25_iter_lndet`, `C25_semi_iter_partial`, `C25_no_band`.
  Note: Partitioned inversion returns the inverse and log-determinant of the full matrix whenever the leading blocks are invertible (positive definite matrices meet this) and there is at least one band after the first block. With no band the code leaves the array uninverted (C25_no_band), only the log-determinant is right.
* **C26 All likelihood implementations agree** (partial) — Both likelihoods over Mathlib matrices; equality via C24/C25.
  Theorems: `C26_con`, `C26_line_whole`, `C26_line_partial`, `C26_transfer_partial`, `C26_no_line`.
  Note: Continuum: complete. Lines: for positive definite covariance (guaranteed by noise, C30). The variant used for sampling differs from the other three for data sets without lines (C26_no_line), so its agreement is proved for sets that have a line.
* **C27 The likelihood is the marginal Gaussian likelihood** (partial) — Quadratic-form minimisation, completing the square with Mathlib PosDef.
  Theorems: `C27_con`, `C27_minimal`, `C27_line_partial`, `C27_transfer_partial`, `C27_layout`, `C26_no_line`.
  Note: Continuum: complete. Lines: every data set has a line; the claim is false for a data set without lines (C26_no_line).
* **C28 The likelihood does not depend on a common flux offset** (proved) — Same model, projection identity.
  Theorems: `C28_con`, `C28_line`, `C28_transfer`.
  Note: All four line likelihoods, data sets without lines included.
* **C29 The damped-random-walk covariance is a covariance** (proved) — OU kernel as Gram matrix / explicit Markov decomposition.
  Theorems: `C29_psd`, `C29_pd`, `C29_distinct`.
* **C30 The joint continuum/line covariance is a covariance** (partial) — Covariance functions of all types as closed forms (`Model/Kernel`), their integral representation (C31-C35), covariances of averages of the damped random walk under finite measures are positive semi-definite.
  Theorems: `C30_psd_partial`, `C30_pd_partial`, `C30_gauss_tophat`, `C30_band`.
  Note: Proved for any number of lines, components, types, times and parameters outside the narrow band around the damping timescale where the code switches to a limiting formula; unconditional for Gaussian and top-hat. In the band the claim is false (C30_band).
* **C31 Top-hat covariances are the convolution integrals** (proved) — Closed forms of `Model/Kernel` against `covLC`, `covLL` (integrals), by splitting the integrals and the fundamental theorem of calculus.
  Theorems: `C31_tophat`.
  Note: All times, lags, widths; continuum-line, auto- and cross-covariances.
* **C32 Gaussian covariances are the convolution integrals** (proved) — erfc defined by its integral; convolution with Gaussian by FTC/completing the square.
  Theorems: `C32_gauss`.
  Note: erfc and gsl_sf_log_erfc by their mathematical meaning.
* **C33 Exponential covariances are the convolution integrals** (proved) — As C31; outside the band |1-T/tau|<1e-5 and exactly at equality, which is what the property claims.
  Theorems: `C33_exp`.
  Note: Outside the band and exactly at equal timescales, as stated.
* **C34 Gamma covariances are the convolution integrals** (proved) — As C33.
  Theorems: `C34_gamma`.
  Note: Outside the band and exactly at equal timescales.
* **C35 Covariance between mixed transfer functions is the convolution integral** (partial) — As C31-C34 for mixed pairs.
  Theorems: `C35_mixture_partial`, `C35_pair_partial`, `C35_swap`, `C35_band`.
  Note: All sixteen ordered pairs of types outside the band (and at equality); transposition without condition; in the band the formula is not the integral (C35_band).
* **C36 Line covariance functions are symmetric** (partial) — Algebra on the closed forms; the only asymmetric points are identified.
  Theorems: `C36_pair`, `C36_cross`, `C36_auto`, `C36_single`, `C36_gauss_tophat`, `C36_band`.
  Note: Holds except for two exponential or two gamma components with one timescale in the band whose responses start at exactly the same instant (C36_band).
* **C37 Whole covariance matrix is filled exactly once** (proved) — Index arithmetic of the assembly loops as a write list.
  Theorems: `C37_once`, `C37_entry`, `C37_outside`.
* **C38 Reconstruction is the best linear unbiased prediction** (partial) — Three line and two continuum reconstructions (`Model/Recon`) with LU inverse as partial function; best linear unbiased prediction by completing the square.
  Theorems: `C38_con`, `C38_con_trend`, `C38_con_exact`, `C38_line_partial`, `C38_line_trend_partial`, `C38_line_error_partial`, `C38_line_exact_partial`, `C38_no_line`.
  Note: Continuum: complete for both variants. Lines: for data sets with at least one line all three variants agree and are the best linear unbiased prediction for any covariance functions with a positive definite data covariance; non-negative error and exact reproduction of noise-free points are proved for the code's transfer functions outside the band |width-tau| < EPS where the code replaces formulas by limits. A data set without lines can get NaN errors from the variant in use (C38_no_line). Exact real arithmetic.
* **C39 Parameter layout is collision free** (proved) — Index functions; injectivity and surjectivity by arithmetic.
  Theorems: `C39_layout`, `C39_ranges`, `C39_range_values`, `C39_roles`.
  Note: all numbers of data sets, lines, components and both sharing options; indices, ranges (given in terms of the options) and the index arithmetic of the moves agree
* **C40 Unknown or repeated options are rejected** (partial) — Tokenised-line model of the reader; induction over lines.
  Theorems: `C40_accept`, `C40_options`, `C40_values`, `C40_defaults`, `C40_order_partial`, `C40_alias`, `C40_no_value`.
  Note: Acceptance, values and defaults proved for all texts whose lines fit the 200-byte buffer; independence of the order holds unless both spellings of a component number are used (C40_alias); tags without a value are ignored even if unknown (C40_no_value).
* **C41 An accepted configuration is consistent** (partial) — Validation as a function on a settings record; case analysis. Checks that can never fire are recorded.
  Theorems: `C41_consistent_partial`, `C41_accepts`, `C41_lag`, `C41_flags`, `C41_mixture`, `C41_mixture_prior`.
  Note: The documented relations hold after every accepted file except: lag limits of models other than 0 are not checked (C41_lag), FlagNegativeResp and TypeTF are not validated (C41_flags), the mixture model changes the component numbers after the checks (C41_mixture), and its lag prior type is reset to 0 when the number of components is left at its default (C41_mixture_prior).
* **C42 Data file header and body are read consistently** (partial) — Two-pass reader model; negation for empty light curve with witness, `_partial` for all non-empty.
  Theorems: `C42_read_partial`, `C42_read_exit_partial`, `C42_empty_line`, `C42_nmap_partial`, `C42_nmap_single`, `C42_negative`, `C42_short_header`.
  Note: For a file in the documented format whose empty line light curves come last, exactly the listed points are read, or the program stops. Negations: an empty line before a non-empty one leaves a count unset (C42_empty_line); in mode nmap a header line without lines writes through a null pointer (C42_nmap_single); a negative number of points is not rejected (C42_negative); header lines missing at the end of the file are replaced by the last line read, and the program stops (C42_short_header).
* **C43 Light-curve normalisation is invertible and positive** (partial) — `scale_con_line` over reals.
  Theorems: `C43_scale`, `C43_accept`, `C43_factor`, `C43_errors`, `C43_file_partial`, `C43_vmap_file`.
  Note: Scaling divides by a positive factor stored for later; relative errors unchanged. The written normalisation file holds the factors except for velocity-map runs, where an uninitialised number is written (C43_vmap_file).
* **C44 Work split over MPI tasks is a partition** (partial) — Integer arithmetic.
  Theorems: `C44_split_partial`, `C44_unbalanced`.
  Note: exactly-once split, buffers in bounds; balance within one is false: the root takes the whole remainder (witness C44_unbalanced)
* **C45 Lag prior bins** (partial) — Range assignment + perturbation invariant.
  Theorems: `C45_windows`, `C45_stay_partial`, `C45_clipped`.
  Note: windows adjacent, equal, covering the lag range cut to half the time span; lags stay in their windows when the configured range lies within half the time span and the positive-lag option is off. The full claim is false: the fixed lags of types 2 and 3 use the uncut range (C45_clipped)
* **C46 Component order is preserved** (partial) — Perturbation invariant on sorted lists.
  Theorems: `C46_order_partial`, `C46_positivity`.
  Note: order and range invariant when the positive-lag option is off; with that option the initial draw can be out of order (C46_positivity)
* **C47 Positive-lag option does not break the prior** (partial) — Negation with a witness (the loop uses shifted indices).
  Theorems: `C47_penalty_partial`, `C47_initial`.
  Note: moves are charged -100 exactly when the constraint fails; the claim about the initial draw is false: from_prior_line tests amplitude and lag instead of lag and width, and may set a lag outside its range (C47_initial)
* **C48 Model selection reports the best model** (proved) — Fold over evidences.
  Theorems: `C48_best`.
  Note: all evidence lists of finite doubles
* **C49 Seasonal-gap and ratio prior strings are parsed as documented** (partial) — Token-level model of the parsers; negation with witness for the two broken ones, proof for the lag prior.
  Theorems: `C49_lag`, `C49_width`, `C49_ratio_default`, `C49_ratio_partial`, `C49_ratio_pairs`, `C49_gap_partial`, `C49_gap_shift`.
  Note: Lag and width prior strings: as documented. Ratio: default and a single pair only; two or more pairs are undefined behaviour. Gap: one data set only; with more, set i gets values i and i+1.
* **C50 Posterior summaries are correct** (proved) — Finite sums over reals.
  Theorems: `C50_summary`, `C50_short`, `C65_reconstruct`.
  Note: parameter summaries; C65_reconstruct covers the averaged light curves (variance argument of sqrt never negative)
* **C51 Virtual-continuum model explores its damping timescale** (partial) — Extended-float model `Fl` of perturb_vmap and of the acceptance test; no accepted move changes the parameters.
  Theorems: `C51_never`, `C51_frozen`, `C51_accept_partial`.
  Note: False for the code: in this mode var_param_std is zero, the proposal ratio is not a number and no proposal changing a continuum parameter is ever accepted (C51_never, C51_frozen). The acceptance rule is right when the deviations are non-zero (C51_accept_partial).
* **C52 Library version check** (proved) — Decision logic; negation with witness and exact characterisation of the accepted set.
  Theorems: `C52_check`, `C52_current`, `C52_lower_patch`.
  Note: acceptance decision right for all versions; the finer outcome 'lower' is misreported as 'equal' for a lower patch number (C52_lower_patch), invisible with the current patch number 0
* **C53 Acceptance rule** (proved) — Sampler step; case analysis.
  Theorems: `C53_acceptance`.
* **C54 Response-ratio reparametrisation** (proved) — Vector maps; inverse given explicitly.
  Theorems: `C54_values`, `C54_inplace`, `C54_bijective`.
  Note: values, in-place aliasing, bijectivity
* **C55 Elapsed-time display** (partial) — Arithmetic. `C55_hms_exact` gives the exact bound of the conversion to an `int`; `C55_wrap` and `C55_wall_back` the counter that wraps round and the clock that is set back.
  Theorems: `C55_hms_partial`, `C55_hms_exact`, `C55_overflow`, `C55_diff`, `C55_wrap`, `C55_wall_back`.
  Note: for durations below 2147486400 s; exactly from there on the int product overflows (C55_hms_exact, C55_overflow)
* **C56 Parameter-name files load for any comment layout** (partial) — Reader loop on characters with `fgets`; endless loop is the outcome `hang`.
  Theorems: `C56_load_partial`, `C56_comment`, `C56_blank`, `C56_last_line`, `C56_index`, `C56_drw`.
  Note: Files consisting of parameter lines are loaded, last line wins. Negations: comment or blank lines never return, a last line without newline is dropped, a negative index writes in front of the arrays. C56_drw: combination with the continuum run.
* **C57 What the level counters count** (proved) — Sampler machine of C05; the counters are compared with the history of moves.
  Theorems: `C57_counters`.
* **C58 Level moves follow the weighted Metropolis rule** (proved) — `update_level_assignment` with its random numbers; acceptance probability against the weights of the levels.
  Theorems: `C58_level_move`.
* **C59 All tasks agree on whether enough levels exist, and that is final** (proved) — Sampler machine with several tasks; invariant.
  Theorems: `C59_agreement`, `C59_enough_is_final`.
* **C60 The log-determinant read off the symmetric factorisation is right for covariance matrices** (proved) — Bunch-Kaufman factorisation written out as a recursion on Schur complements (`Model/Pivot`).
  Theorems: `C60_pivots`, `C60_upper`, `C60_indefinite`, `C60_multiplier`.
  Note: Bunch-Kaufman pivoting (LAPACK dsytf2) written out as a recursion; for positive definite input no 2x2 pivot is chosen. C60_indefinite shows positive definiteness is needed.
* **C61 A component's parameters are the area and mean lag of the response** (proved) — Integrals of the transfer functions (total area and first moment).
  Theorems: `C61_profile`, `C61_transfer`.
  Note: Together with C31-C35 for the meaning in the code.
* **C62 Line-model parameters stay in their ranges and fixed ones stay fixed** (partial) — `from_prior_line`, `perturb_line_prior0/1` with index arithmetic (`Model/LineParams`, `Model/Line`); invariant over lists of moves.
  Theorems: `C62_line_moves_partial`, `C47_initial`.
  Note: holds with the positive-lag option off and, for shared lags, when the first data set has the most lines; with the option the initial draw can leave the range (C47_initial)
* **C63 Shared lags and widths are really shared** (partial) — Same model, equality of the shared parameters as invariant.
  Theorems: `C63_shared_partial`, `C63_more_lines`.
  Note: holds when the first data set has at least as many lines as the others; otherwise the code reads uninitialised indices (C63_more_lines)
* **C64 The seasonal-gap penalty is charged for the right data set** (partial) — `get_seasonal_gap*` penalties in perturb; case analysis over sharing options.
  Theorems: `C64_gap_partial`, `C64_uniform`.
  Note: holds unless transfer functions are fully shared, in which case only the last data set's gap is used (C64_uniform), or a data set has no lines
* **C65 Reconstruction independent of the number of tasks** (proved) — Averages over samples split among tasks (`Model/Misc`), sums over blocks.
  Theorems: `C65_reconstruct`.
  Note: the per-sample reconstruction is a parameter
* **C66 Restart files of different models are separate** (partial) — File names as character lists.
  Theorems: `C66_files_partial`, `C66_pmap`.
  Note: holds in the default mode; fails in pmap and vmap modes (C66_pmap)
* **C67 Reconstruction nodes cover the data** (partial) — Node formula over the reals.
  Theorems: `C67_nodes_partial`, `C67_one_node`.
  Note: two or more nodes; one node divides by zero (C67_one_node)
* **C68 Sampler options of the parameter file reach the sampler** (partial) — `write_options_*` and `options_load` on text: printing with `%d` and `%.2f`, reading back; round trip.
  Theorems: `C68_options_partial`, `C68_small`, `C100_line`.
  Note: Integers exactly, reals to within 0.005 and exactly for multiples of 0.01; smaller values are lost (C68_small). C100_line connects it to the text of the file.
* **C69 Accepted step counts fit the sampler's buffers** (partial) — Validation of the options in `dnest`, 32-bit arithmetic.
  Theorems: `C69_intervals_partial`, `C69_accepts`, `C69_zero_steps`, `C69_wrap`.
  Note: Relation proved when tasks*steps fits 32 bits; zero steps are accepted (C69_zero_steps) and the product can wrap (C69_wrap).
* **C70 Reading and scaling stay within the arrays** (partial) — `read_data`, scaling and final print with arrays of the sizes allocated; out-of-range access is `ub`.
  Theorems: `C70_finish_partial`, `C70_vmap`, `C70_read_partial`.
  Note: Points in every continuum. In mode vmap the continua must be empty and the final print reads the first point of an empty light curve (C70_vmap).
* **C71 Derived time span, lag limit, cadence and default width range** (partial) — `scale_con_line`/`init` over the reals with the sorted times.
  Theorems: `C71_span`, `C71_lag_partial`, `C71_negative_limit`, `C71_cadence`, `C71_width_partial`, `C71_same_times`.
  Note: A negative LagLimitUpp is replaced by the default (C71_negative_limit); coincident times give the logarithm of zero as lower width (C71_same_times).
* **C72 Printed reconstruction times stay distinct** (partial) — Output times over the reals with `%f` rounding to 1e-6.
  Theorems: `C72_times_partial`, `C72_nodes_partial`, `C72_short_set`, `C72_zero`.
  Note: Holds for sets whose span is not much below the longest; short sets collide (C72_short_set), zero span is undefined (C72_zero).
* **C73 Seasonal gap is the mean of the longest intervals** (partial) — Sorted intervals as lists.
  Theorems: `C73_gap_partial`, `C73_one_year`, `C73_few_points`.
  Note: Mean of the longest intervals when there are enough of them; otherwise the array is read in front of its start (C73_few_points).
* **C74 Virtual-continuum moves keep parameters in their priors** (partial) — `from_prior_vmap`, `perturb_vmap` (`Model/Vmap`); invariant over moves.
  Theorems: `C74_vmap_partial`, `C74_fixed`, `C74_ordered_exit`, `C74_ordered_range`, `C74_no_line`.
  Note: Proved for data sets with lines, without the positive-lag option and, with ordered lags, for lag ranges starting at zero; otherwise false: with a negative lower lag limit the program can stop, with a positive one lags leave their range, and a data set without lines reads uninitialised memory.
* **C75 Continuum-only data sets in a line run** (partial) — The four line likelihoods (`Model/Like`) with an empty list of lines.
  Theorems: `C75_whole_partial`, `C75_used`.
  Note: Proved for the three likelihood variants that treat the matrix as a whole; false for the one used for sampling (C75_used), whose block inversion leaves the matrix uninverted when there is no line.
* **C76 Virtual-continuum likelihood is the marginal likelihood of the lines** (partial) — `prob_line_variability*_vmap` (`Model/VmapLike`): matrix fill, trend columns, block inversion; marginal likelihood as in C27.
  Theorems: `C76_whole`, `C76_used_partial`, `C76_agree_partial`, `C76_transfer_partial`, `C76_trend`, `C76_one_line`.
  Note: full for the direct implementation and for invariance under trends; for the one used for sampling every data set must have two lines or more: with a single line the block inversion leaves the matrix uninverted (C76_one_line proves a wrong value)
* **C77 Without a continuum only differences of lags matter** (proved) — Same model; covariances depend on differences of lags.
  Theorems: `C77_lag_origin`.
  Note: both implementations, no condition on data or parameters
* **C78 Moves leave the prior invariant** (proved) — Moves as functions of their random numbers; detailed balance as equality of expectations over uniform and normal variates, by change of variables and reflection.
  Theorems: `C78_continuum`, `C78_line`.
  Note: Detailed balance, in exact arithmetic. A particle sitting exactly on the upper end of a range, or with two equal lags under the ordered prior, is excluded (probability zero; folding returns the lower end there). In the line model the standard deviations of the continuum run must be positive (in double arithmetic a zero one gives NaN). The penalties are charged for the new state only; since they are never positive this is still balanced.
* **C79 Work arrays are large enough and their parts never overlap** (partial) — Sizes from `allocate_memory` and every use of `workspace` as lists of (offset, length) per computation (`Model/Workspace`); arithmetic.
  Theorems: `C79_con_likelihood`, `C79_con_reconstruction`, `C79_line_likelihood`, `C79_line_reconstruction_partial`, `C79_no_line`, `C79_decomposition`, `C79_vmap_likelihood`, `C79_vmap_reconstruction`.
  Note: All computations, for all sizes with at least as many points as trend coefficients. The reconstruction of continuum and lines needs a line or a trend: without either it writes one element behind the workspace (C79_no_line).
* **C80 Decomposition of a line into components adds up to the reconstructed line** (partial) — `decompose_single_component` for both kinds (`Model/Decomp`): matrix fills as writes, single-component covariances written out; sums of covariances, best linear prediction with known trend.
  Theorems: `C80_sum_partial`, `C80_mixture_sum_partial`, `C80_component_partial`, `C80_mixture_component_partial`, `C80_band`, `C80_mixture_error`.
  Note: Proved for widths outside the bands around the damping timescale (sum for mixtures: all widths). Negations: in the decomposition's wider band the components do not add up to the line (C80_band); for mixtures the variance is that of the type in TypeTF, which gives NaN errors (C80_mixture_error).
* **C81 The array covariance functions used while sampling agree with the point-by-point ones** (proved) — Array functions and scratch arrays as memory with bounds (`Model/ArrayKernel`): loop invariants over rows, components and light curves; formulas compared algebraically with the scalar ones; assembly equal to the write list used by the likelihood theorems.
  Theorems: `C81_line_continuum`, `C81_line_self`, `C81_line_pair`, `C81_matrix`, `C81_matrix_vmap`, `C81_no_memory`, `C81_scratch`.
  Note: All array formulas, the scratch arrays with their allocated sizes, and the three assembly functions are modelled; real arithmetic.
* **C82 Photometric mode keeps all parameters inside the priors the user gave** (partial) — Preparation of the priors (`pmapCfg`) on top of the parsers of C49 and the ranges of C39; moves and draws are those of `LineCfg`, so the invariant of C62 applies. Negations for width limits below one day and for the first component.
  Theorems: `C82_ranges`, `C82_stay_partial`, `C82_width_stop`, `C82_first_width`.
  Note: Proved with the positive-lag option off and upper width limits of the later components of at least one day. Negations: an upper width limit below one day stops the program at the first move of that width; a lower limit above 0.01 is not respected for the first component.
* **C83 The photometric likelihood is that of the documented two-component transfer function** (partial) — Conversion of ratios (C54) followed by the likelihood of the lines: the terms are those of `prob_line_variability4` for the converted vector (`C83_as_line`), hence the Gaussian likelihood of C25/C27 with the documented transfer function of C35.
  Theorems: `C83_transfer`, `C83_as_line`, `C83_likelihood_partial`, `C83_documented_partial`.
  Note: All parameter values outside the bands of C35; data sets with at least one line (the likelihood of data sets without lines is wrong for the same reason as in C25_no_band).
* **C84 Virtual-continuum reconstruction is the best linear unbiased prediction** (partial) — The loops filling the three matrices are shown to leave the covariances of the model for any previous contents (as C38, through the data set with an empty continuum); the algebra then gives the weights of the best linear unbiased prediction. The error of the virtual continuum is that for known trends (it is not written to any file). Errors are numbers outside the bands of C35.
  Theorems: `C84_reconstruct`, `C84_error_partial`.
  Note: Prediction, trend coefficients and standard errors for all data sets and covariance functions; that no error is NaN for the transfer functions of the code, with widths outside the bands of C35.
* **C85 The nodes of a virtual-continuum reconstruction cover the data** (partial) — Folds over the lines; the negation for data with only negative times is proved (`C85_negative_times`).
  Theorems: `C85_nodes_partial`, `C85_count`, `C85_negative_times`.
  Note: Holds with two nodes or more if some line ends at a time that is not negative; otherwise the window ends at time zero, proved as C85_negative_times.
* **C86 The virtual light curve is written in normalised units** (proved) — Sums over lists; the division among tasks as in C65. Constant light curves become NaN (`C86_constant`).
  Theorems: `C86_normalised`, `C86_units`, `C86_tasks`, `C86_constant`.
  Note: All light curves; constant ones become NaN, proved as C86_constant.
* **C87 The command line is understood as written** (partial) — `getopt` with permutation is written out (Model/Getopt.lean); the convention is an inductive relation between arguments, options and names (Spec/CmdLine.lean). Induction over it. Negations: `C87_fails_dashes`, `C87_fails_long`, `C87_fails_colon`.
  Theorems: `C87_any_order_partial`, `C87_no_file`, `C87_unknown`, `C87_missing`, `C87_fails_dashes`, `C87_fails_long`, `C87_fails_colon`.
  Note: Arguments shorter than 256 characters and no '--'; false otherwise, negations proved.
* **C88 The sampler is started with what the stage means** (proved) — Both sides are modelled, the filling of the argument array and the sampler's own option loop; composition computed exactly, overflow included.
  Theorems: `C88_con`, `C88_line`, `C88_other`.
  Note: Exact result for every directory name, including the overflow for long ones.
* **C89 What a run does under each combination of flags** (partial) — A run is a list of actions; its projections are computed for all flags, modes and ranges. Negation: `C89_fails_resume_con` (the continuum stage is never resumed).
  Theorems: `C89_sampled`, `C89_resumed`, `C89_posterior`, `C89_reconstructed`, `C89_names`, `C89_evidence`, `C89_decomposed`, `C89_same_snapshot`, `C89_nothing`, `C89_plain`, `C89_post_only`, `C89_fails_resume_con`.
  Note: The continuum stage is never resumed with -r (negation proved); directory names short enough.
* **C90 Stages do not overwrite each other's results** (partial) — Injectivity of decimal numbers and of the concatenated names. Status and option files of the sampler are shared by the stages and not part of the statement. `Act.writes` (Model/RunFiles.lean) lists the files each part of a run writes: `C90_owned`, a file meant for one stage is written by no other; `C90_kept`, posterior samples; `C90_fails_weights`, `C90_fails_last`, all stages write the same `weights.txt`, so only those of the last stage are left.
  Theorems: `C90_distinct`, `C90_sampler_names`, `C90_fits_con`, `C90_owned`, `C90_kept`, `C90_fails_weights`, `C90_fails_last`.
  Note: weights.txt, the status file and the list of options are shared by the stages: only the last stage's are left (negation proved for the weights); sampler file names fit only for short directory names.
* **C92 A resumed run uses the samples of both runs** (partial) — Induction over the rounds: a run only appends, one row per counted save. Negations for rows written after the snapshot (`C92_fails_stale`, `C92_stale`) and rows not yet flushed (`C92_fails_lost`, `C92_lost`).
  Theorems: `C92_all_used_partial`, `C92_stale`, `C92_lost`, `C92_synced`, `C92_synced_cases`, `C92_fails_stale`, `C92_fails_lost`.
  Note: Holds if the file has exactly the rows counted in the snapshot; otherwise stale rows are used or the run cannot be post-processed (proved). C92_synced says exactly for which numbers of saves the rows of every snapshot are already on disk.
* **C93 Sampler invariants survive any number of interruptions** (proved) — Inductive set of states closed under rounds and resumption (Spec/Sessions.lean); invariant preserved by both; a round does not depend on the rows saved (`round_file`).
  Theorems: `C93_invariants`, `C93_no_ub`, `C93_resumable`, `C93_loses_collected`.
* **C91 The file of parameter names says what the parameters are and can be loaded again** (partial) — The printed text is modelled character by character, with field widths, `%.6f` written out and `%.6e` a parameter; the loader is that of C56. `sscanf` on a printed line is computed for all numbers. Negations for files of post-processing runs: `C91_fails_post`, `C91_fails_reload`. `C91_text` (`Props/ParText.lean`) is the same with `%.6f`, `%e` and `%lf` as functions on texts instead of assumptions on them.
  Theorems: `C91_layout`, `C91_roundtrip`, `C91_restored`, `C91_text`, `C91_fails_post`, `C91_fails_reload`.
  Note: Names, positions and round trip are proved in full (numbers below 10^50). Missing: the file of a post-processing run is not usable, as proved.
* **C94 The likelihoods do not depend on the origin of time** (proved) — `Props/TimeOrigin.lean`: the covariance functions depend on time differences only (`Kernels.Stationary`, proved for all transfer functions); the shift changes the trend columns by an upper triangular matrix with unit diagonal (binomial theorem), and the marginal likelihood is invariant under a change of trend functions of determinant one (`margLL_mul`).
  Theorems: `C94_con`, `C94_line`, `C94_transfer`, `C94_vmap`.
  Note: All continuum, line and virtual-continuum likelihoods, any degree of the trend.
* **C95 Flux units do not matter when the data are normalised** (proved) — `Props/Units.lean`: over the model of reading, checking and scaling of C40 and following: the scale factor is homogeneous, the normalised data do not change; a witness shows that without normalisation units matter.
  Theorems: `C95_check`, `C95_units`, `C95_accepted`, `C95_same_data`, `C95_not_without_scaling`.
  Note: Exact arithmetic; with normalisation on nothing depends on the units, with normalisation off a witness shows that it does.
* **C96 The numbering of the components of a transfer function does not matter** (proved) — `Props/Labels.lean`: the sums over components are sums over a finite set, invariant under a permutation; hence every entry of the covariance matrix is the same number, so the likelihoods agree whatever the outcome (no condition on the parameters).
  Theorems: `C96_labels`, `C96_labels_vmap`.
  Note: All four line likelihoods and both of the mode without continuum; no condition on the parameters.
* **C97 The order of lines and of data sets does not matter** (proved) — `Proof/Reorder.lean`, `Props/Order.lean`: the points of the two orders are in bijection, the covariance matrix (a symmetric function of two points by C29/C36) and the trend columns are permuted, and the marginal likelihood is invariant under permutations (`margLL_reindex`); the block-wise likelihood is brought to that form by C26/C27.
  Theorems: `C97_order`, `C97_order_vmap`, `C97_order_con`.
  Note: Under the conditions in the statement (positive definite, outside the bands).
* **C98 The evidence does not depend on the order of the rows in the sample files** (proved) — `Props/RowOrder.lean`: log X, log prior mass and likelihood attached to the rows are, up to order, a function of the ranks in each level and of the sorted list of likelihoods, which is the same for permuted rows; evidence, information, ESS and the maximum are symmetric functions of the rows.
  Theorems: `C98_rows`, `C98_files`.
  Note: Whenever post-processing succeeds for both orders (C22 says when it does).
* **C99 Every allocated block is released exactly once and never used afterwards** (partial) — `Model/Heap.lean`: the sequence of allocations, accesses and releases of a run, function by function; a block is named by the pointer that owns it. `Proof/Heap*.lean`: a small program logic (a segment that needs certain blocks, uses only names of inner functions, and restores the memory), one lemma per function; `Props/Heap.lean`: a whole run from empty memory, plus the ledger theorem that the state of the model accounts for every allocation.
  Theorems: `C99_memory_partial`, `C99_no_leak`, `C99_decomp_leak`, `C99_never_released`, `C99_library_double_free`, `C99_ledger`.
  Note: Never undefined, for every configuration. Full claim fails: three (root: four) blocks are never released, and decomposition loses one row per data set; both proved exactly.
* **C100 Option files of the sampler mean what they say, to both programs that read them** (partial) — `Model/Options.lean`: the two files as texts, the sampler's reader with its defaults, the second reader, and the options of the two stages. Every accepted file is characterised line by line (`C100_values`); printing and reading back is proved for all settings (`C100_line`); the second reader is compared with the first (`C100_particles_partial`, `C100_refused`), with witnesses where they differ.
  Theorems: `C100_values`, `C100_line`, `C100_con`, `C100_stages`, `C100_user`, `C100_particles_partial`, `C100_refused`, `C100_refuses_accepted`, `C100_exponent`, `C100_override`, `C100_negative`, `C100_comments`.
  Note: Full for the sampler's reader and the files the program writes. Fails for: the listed defaults, the second reader (single-word lines, empty file, other notations), the independence of the stages (number of particles), negative whole numbers; each with an exact condition or witness.
* **C101 The files of the decomposition add up to the file of the reconstruction** (partial) — `Model/DecompFiles.lean`: both drivers from the samples to the rows of the files (windows, nodes, distribution of the samples, accumulators with arbitrary previous contents, reduction, output). The accumulators are shown to hold sums over all samples whatever the distribution; the sum rule for one sample (C80) is carried through the means. Negation for the options that extend the time range, with the exact condition. `C101_trend`: `trend.txt` holds mean and standard deviation of the least-squares coefficients over the posterior sample.
  Theorems: `C101_sum_partial`, `C101_tasks`, `C101_window`, `C101_trend`.
  Note: Missing: non-zero TimeRecLowExt or TimeRecUppExt, which the decomposition ignores (C101_window gives the exact condition); widths inside the bands around the damping timescale where the functions of the decomposition differ (as C80), except for mixtures; data sets without lines.
* **C102 Output light curves have the format of the input data** (partial) — `Model/SciText.lean`: `%.pe` (round to nearest even, normalised mantissa, at least two exponent digits) and `%lf` as functions on texts, and the texts of the files. `scanLf_text`: reading a printed number gives the rounded number and stops behind it, so the rows of the file are the rounded rows; rounding is monotone and within half a unit of the last digit; the reader is that of C42. Negations for component files with two or more data sets, for the reconstruction of a virtual-continuum run and for `pcon.txt` in nmap mode.
  Theorems: `C102_pall`, `C102_comp_partial`, `C102_comp_ub`, `C102_comp_fails`, `C102_vmap`, `C102_nmap`, `C102_printed`.
  Note: Holds for pall.txt and pcon.txt read by the modes pmap, mmap and gmodel, and for component files with one data set; fails for component files with two or more data sets, for pall.txt in vmap mode and for pcon.txt in nmap mode (negations proved).
* **C103 What the sampler saves is what post-processing and the drivers read** (proved) — `Model/SampleText.lean`: the files as texts (`%14.12g`, `%e`, `%f`, `%d`, `%llu` as functions from numbers to characters; `fgets`, `sscanf`, `fscanf` as functions on texts). `scanLf_g`: a number printed with `%g`, whose trailing zeros are removed, is read as the rounded number. By induction over the rows every line fits the buffer and is read as its row; rounding to six decimals is idempotent and monotone; together with C22.
  Theorems: `C103_files`, `C103_short`, `C103_use`, `C103_good`.
  Note: Texts of levels, sample_info, sample, posterior_sample files; names of the parameters in headers are not modelled here (C91).
* **C104 The digits printed do not matter for the evidence** (partial) — The evidence is written as a sum over ranks within levels (`logz_ranks`); the mass of a rank is a fixed share of the mass between two levels (`logpAt_share`), and the logarithm of a difference of masses moves by at most (1+2/G) times the error of log X when the levels are G apart (`log_diff_le`). Both sums, numerator and normalisation, then move by at most the printing errors. Negation `C104_fails`: a sample that crosses a threshold by printing.
  Theorems: `C104_evidence_partial`, `C104_fails`.
  Note: Seven digits of the log-likelihoods and twelve of log X: holds if no sample comes to lie on another side of a threshold by printing; false otherwise (witness C104_fails).
* **C105 The matrix helpers compute the products they name and touch nothing else** (proved) — `Model/Flat.lean`: memory as arrays of numbers, pointers, element reads and writes, `cblas_dgemm`, `cblas_dgemv`, `cblas_ddot`, `memcpy`, `dsytrf`/`dsytri` with checks of leading dimensions, bounds and overlap; the helpers are the calls they make. Row-major indices are decomposed by division (`dgemm_tight`, `dgemv_tight`), the fill loops are proved by loop invariants (`forD_inv`).
  Theorems: `C105_matrices`, `C105_square`, `C105_vector`, `C105_vector_transposed`, `C105_vector_transposed_short`, `C105_empty`, `C105_outer`, `C105_inverse`, `C105_inverse_room`.
  Note: BLAS/LAPACK routines by their specification
* **C106 Determinants, their logarithms and signs are read off the LU factors correctly** (partial) — `Model/LU.lean`: LAPACK's output is any array and interchanges with `P A = L U`, multipliers at most 1. Determinants of triangular matrices and of transpositions give det A as product of pivots and signs; the loops are folds. Missing, because false: the sign of lndet_mat2 (`C106_sign2_fails`: -1 for a positive definite matrix under every admissible factorisation) and A = M^T M (`C106_chol_comment_fails`; `C106_chol` proves A = M M^T). Both functions are never called.
  Theorems: `C106_det`, `C106_lndet`, `C106_sign`, `C106_inverse`, `C106_lndet2_partial`, `C106_sign2_fails`, `C106_chol`, `C106_chol_comment_fails`.
  Note: the sign of lndet_mat2 and the comment of Chol_decomp_U do not hold; both functions are never called
* **C107 The likelihoods depend on nothing that earlier calls left in the shared work arrays** (proved) — `fProbCon` (`Model/Flat.lean`) is the function as a program on memory. Every step is proved to return, to leave the value of the matrix formula in its piece and to change nothing else (`fTrendCon_spec`, `fSemi_spec`, `fSolveMat_spec`, `fInverseSymat_spec`, ...); with the layout of the pointers (sizes of C79) they compose to `probConSemi` of `Model/Like.lean`, by induction over the data sets.
  Theorems: `C107_con`, `C107_con_leftovers`.
  Note: continuum likelihood at the level of pointers
* **C108 The line likelihood used for sampling depends on nothing left in the shared work arrays** (proved) — `fProbLine` (`Model/FlatLine.lean`) is the function as a program on memory; two ints per double are laid out by an arbitrary structure with the laws of put and get. Loops are proved with the relation `Step` (final values, nothing else changed, no final value destroyed); `fBands_spec` is an induction over the bands in which positive definiteness keeps every Schur complement invertible; `fTrend_spec`, `fCovar_spec` and `fNarr_spec` are inductions over the lines; with the layout of the pointers (sizes of C79) they compose to `probLine4` of `Model/Line.lean` by induction over the data sets.
  Theorems: `C108_line`, `C108_leftovers`, `C108_value`.
  Note: line likelihood at the level of pointers
* **C109 A step of the sampler leaves the mixture of likelihood-constrained priors invariant** (proved) — `samplerMove` (`Model/Joint.lean`) joins the model's `perturb` to `update_particle` and `update_level_assignment`; the mixture and the priors are measures (`Spec/Invariance.lean`). Folding a translated coordinate into its window preserves Lebesgue measure (`lintegral_fold`), a balanced acceptance with a symmetric step then preserves a density on the window (`metropolis1`), and a product measure is treated one coordinate at a time (`lintegral_pi_fibre`, `pi_metropolis`). For the line model the window and `logH` depend only on parameters that are not copies (`bounds_congr`, `moveLogH_congr`), the region of the prior is an interval along the moved coordinate (`region_in`, `region_move`) and `log_balance` of C78 balances the density. For the levels, `level_balance` on the finite set of levels with a displacement symmetric modulo their number. `randhLaw_symm` and `levelStepLaw_symm` give the symmetry of the laws from that of the Gaussian. The two moves compose because the increments of the counters do not change the weights (`LvSteps.newLevel`) and because the step width reads only limits of levels below the one whose limits were just extended (`Keeps.below`).
  Theorems: `C109_level`, `C109_particle_continuum`, `C109_particle_line`, `C109_continuum`, `C109_line`, `C109_finite_continuum`, `C109_finite_line`.
  Note: whole step while the weights do not contain the counters (levels being created, or beta = 0); each move separately otherwise
* **C110 The Python interface hands out the lags and widths of the line that is asked for** (partial) — `PyObj.timelag`, `PyObj.width` (`Model/PyAccess.lean`) with Python's slices that are cut off at the end of a row without an error. The address of a lag or width is that of the C code (`LineCfg.idxLine`, C39). Right for the first data set and for common transfer functions (`C110_first_partial`). The loop `for j in range(0, set-1)` stops one data set short: a later data set gets the lines of the one before it (`C110_later`), which is right for all samples only if that has no line (`C110_later_wrong`, using that different parameters have different columns, C39); with common lags and widths (flag 2) the values are right nevertheless (`C110_shared_partial`). `pmap.setup` leaves `num_param_var` 0, so that the columns are too far to the left (`C110_pmap`). The header counts agree with what the C code reads iff no light curve is empty (`C110_dims`, `C110_dims_iff`, from C42). `C110_dims_data`: with data handed over as arrays the numbers of sets and lines are those of the C code exactly if no line is without points.
  Theorems: `C110_first_partial`, `C110_later`, `C110_later_wrong`, `C110_shared_partial`, `C110_pmap`, `C110_dims`, `C110_dims_iff`, `C110_dims_data`.
  Note: Right for the first data set or common transfer functions; for later data sets the columns of the data set before are returned (negation proved), in photometric mode the columns are shifted.
* **C111 prepare() puts in place the snapshots from which restart() goes on** (partial) — `pyPrepare` (`Model/PySession.lean`) on a directory of texts: the number of lines of the sample file as Python's iteration counts them (`pyLines`, on the text `sampleText` the sampler writes), `shutil.copy`, names of C85. `C111_prepare_partial`, `C111_steps` by induction over the numbers of components; `C111_restart`: the plan of `restart` (C84) reads exactly those names. Violated: the number of steps of the first number of components is used for all (`C111_first_only`, pymica.pyx:483-490); the snapshots of the other models have no number of components in their names, so that `prepare` always fails (`C111_other_modes`).
  Theorems: `C111_prepare_partial`, `C111_steps`, `C111_first_only`, `C111_other_modes`, `C111_restart`, `C111_cut`.
  Note: Holds for gmodel when all numbers of components have the same number of samples. Violated otherwise: the number of saves is taken from the first number of components, and in pmap, vmap, mmap prepare always fails.
* **C112 What a call of the Python interface does does not depend on the calls before it** (partial) — `PyCall.acts` (`Model/PySession.lean`): the calls set the global flags (`set_argv`) and run the stages; `flagsAfter` is the state after any sequence of calls. `C112_history_partial`, `C112_program_partial` against the plan of the program (`runActs`, C84). Violated: `run` does not reset the flags; after `post_run` or `decompose` it samples nothing (`C112_run_after_post`), after `print_para_names` only the continuum (`C112_run_after_names`), after `restart` it goes on from snapshots (`C112_run_after_restart`); `vmap.restart` and `vmap.print_para_names` run the continuum stage although there is no continuum (`C112_vmap`).
  Theorems: `C112_history_partial`, `C112_program_partial`, `C112_run_after_post`, `C112_run_after_names`, `C112_run_after_restart`, `C112_vmap`.
  Note: Holds for every call except run() after another kind of call, and except restart/print_para_names of vmap; for these the violation is proved.
* **C113 Priors given to the Python interface are the priors that are used** (partial) — `pyPairs`, `pyGap`, `pyLag` (`Model/PyPriors.lean`) write the texts with `%f`; they are read by the C parsers of C49 with the `%lf` of C102. `isNum_fmt6`: `%f` in front of a separator is read back, rounded; `pyPairs_prior`: the text has the form of C49. So `C113_lag`, `C113_width`, `C113_ratio`, `C113_gap_partial` hold for all lists; `C113_fits`: when the text fits into its 256 characters, and that it never does for 15 or more components. Violated: `gap_prior` with two or more data sets always stops the program (`C113_gap_fails`, no separator between pairs); two or more pairs of `ratio_prior` are undefined behaviour (`C113_ratio`); `lag_prior` with one component is not used (`C113_lag_one`); positive widths below 5e-7 stop the program (`C113_width`).
  Theorems: `C113_lag`, `C113_lag_one`, `C113_width`, `C113_ratio`, `C113_gap_partial`, `C113_gap_fails`, `C113_fits`.
  Note: Lags (two or more components), widths, one ratio pair, one data set for gaps. Violated for gaps with several data sets, several ratio pairs, lag_prior with one component, and texts that overflow.
* **C114 Light curves handed over from Python are those that are analysed** (partial) — `pyDataText` (`create_data_file`), `micaText` and `micaNoneText` (`format_mica`) in `Model/PyData.lean` write the file as a text with `%e` and `%f`; it is read by the model of `read_data` (C42) with the `%lf` of C102. `pyData_text`, `pyHead_data`: the headers have the form of C42; `Yields` (C102): the numbers are those of the arrays in order. So `C114_read_partial`, `C114_nmap`, `C114_format_partial`, `C114_format_none_partial` for all data. Violated: a light curve that is None or empty in front of one with points is undefined behaviour (`C114_empty`); `%e` rounds Julian days to whole days (`C114_julian`); arrays with two columns stop the program (`C114_two_columns`), with four columns the numbers of wrong columns are taken without a message (`C114_four_columns`); with `%f` fluxes and errors below 5e-7 become zero (`C114_format_zero`).
  Theorems: `C114_read_partial`, `C114_nmap`, `C114_empty`, `C114_julian`, `C114_two_columns`, `C114_four_columns`, `C114_format_partial`, `C114_format_none_partial`, `C114_format_zero`, `C114_entries`.
  Note: Proved for arrays with three columns whose empty light curves come last, to the printed accuracy; the full claim is false: negations proved for empty curves in between, Julian days, two and four columns, small fluxes with format_mica.
* **C115 Post-processing from Python gives the numbers of the C program** (partial) — `pyPost` (`Model/PyPost.lean`) follows postprocess.py:15-230: climbing loop, `sorted` of pairs, `linspace`, writing of the levels' prior masses, log-sum-exp; the C side is the model of C19-C22. `C115_agree_partial`: for thresholds in order, at least two levels and two samples and no likelihood equal to a threshold, evidence and information are the same real numbers, and the effective sample size lies between the C value times exp(-n*1e-300) and the C value (the script adds 1e-300 before the logarithm). Violated: a sample exactly at the threshold of the next level is moved up by the script and left by the C code (`C115_tie`), and then the evidences differ (`C115_tie_fails`).
  Theorems: `C115_agree_partial`, `C115_tie`, `C115_tie_fails`, `C115_one_level`.
  Note: Same evidence and information, effective sample size up to exp(-n*1e-300), when no likelihood equals a threshold, with at least two levels and samples; false otherwise: C115_tie_fails.
* **C116 Columns of the posterior sample carry the names of what they hold** (proved) — `colNames` (`Model/PyCols.lean`) follows postprocess.py:297-333 on the rows of the text file of C98. `C116_columns`: the list has one name for each parameter, no name twice, and at the address of each slot of the layout the name made from its kind, light curve and component. Light curves are numbered through all data sets.
  Theorems: `C116_columns`.
  Note: All models with components and all sizes.
* **C117 The parameter file of a Python session repeats the analysis** (partial) — `pySetParset` (`Model/PySetup.lean`) follows the functions `setup` of the five classes, `paramText` follows `print_parset`; the reader is that of C41. `C117_file_partial`: after any calls of `setup`, reading the written file gives exactly the checks of the C program applied to the settings of the object, and the members that are not checked come back as they are; texts up to 168 characters, data file a word, numbers read back by `atof`. `C117_gmodel_partial`: an accepted file of the general model gives the settings of the object except for the type of the lag prior. Violated: negative responses (`C117_negative`), the mixture model (`C117_mmap`), options of the sampler, which are comments in the file (`C117_options`). `C117_options_on`: a file in which the options of the sampler are turned on gives each of them from its own line.
  Theorems: `C117_file_partial`, `C117_gmodel_partial`, `C117_negative`, `C117_mmap`, `C117_options`, `C117_options_on`.
  Note: Reading the written file equals the C checks on the object's settings; texts longer than 168 characters are cut by fgets and left out. Fails for negative responses, the mixture model and the sampler options (negations proved).
* **C118 Settings depend on the last call of setup only** (partial) — `C118_same_partial`: after any history, a further call leaves the same effective settings as on a new object and fails in the same cases, provided both width limits, a lag prior for type 4, a gap prior with gaps, digits for `mmap`, and a ratio prior for `pmap` are given; proved by an invariant over histories for the members that a class never sets. Violated otherwise: `C118_stays`, `C118_ratio`. `C118_nmap_trend`: the trend of `nmap` is 0 whatever is asked for.
  Theorems: `C118_same_partial`, `C118_stays`, `C118_ratio`, `C118_nmap_trend`.
  Note: Holds when the optional limits and priors are given; otherwise those of earlier calls stay (negations proved).
* **C119 setup accepts what the C program accepts** (partial) — `C119_unchecked`: `setup` of the general model succeeds for all numbers that fit an `int`; if they are in one of eight bad ranges, the C checks on the same settings exit. `C119_other`: the same for `vmap` and `mmap` with uniform transfer functions, negative responses, or a mixture of less than two. `C119_accepted_partial`: arguments in the documented ranges are accepted by both.
  Theorems: `C119_accepted_partial`, `C119_unchecked`, `C119_other`.
  Note: setup has almost none of the checks of read_parset (negations proved).
* **C120 The first particles are drawn from the prior** (partial) — The random numbers are independent, uniform on [0,1) and standard Gaussian (`Spec/InitLaw.lean`); the prior is the measure that C109 shows the moves to keep. `C120_continuum`: for the continuum run the law of `fromPriorCon` is the prior scaled to 1. `C120_line_partial`: without penalties and common lags, both laws are products restricted to vectors with ordered lags (if the lag prior is the ordered one), and the factors of line parameters and of fixed ones agree; that sorting gives the restricted law is `map_sort` (`Proof/InitOrder.lean`: the permutations of the lags of each line keep the law and cover almost all vectors once). Violated for variability parameters: `C120_line_fails` compares the lowest eighth of a range, to which a wrapped Gaussian of the range's width gives more than 1/40 and the Gaussian prior less than 1/64.
  Theorems: `C120_continuum`, `C120_line_partial`, `C120_line_fails`.
  Note: Continuum run: proved. Line run: line parameters (ordered lags included) and fixed ones agree with the prior; free variability parameters do not, proved. Penalties and common lags not covered.
* **C121 Likelihoods that are not numbers stay out of the result** (partial) — All functions of the sampler are modelled a second time with likelihoods, thresholds and `log_H` as doubles with NaN and infinities (`Model/SamplerFl.lean`), and the evidence of the post-processing too (`Model/PostFl.lean`). A simulation, function by function, shows that without plus infinity every run is a run of the real model with NaN and minus infinity replaced by the lowest double (`C121_run`, `C121_outcome`), so C05 to C13 carry over (`C121_thresholds`, `C121_particles_partial`). `C121_reject`, `C121_stuck`: single moves. Violated: a first particle is not checked and can be saved (`C121_saved_fails`), and one such sample makes the effective sample size NaN and the number of posterior samples undefined (`C121_evidence_fails`, for all lists); plus infinity can become a threshold (`C121_inf_threshold`), and such a level is dead (`C121_inf_dead`).
  Theorems: `C121_reject`, `C121_stuck`, `C121_run`, `C121_outcome`, `C121_thresholds`, `C121_particles_partial`, `C121_saved_fails`, `C121_evidence_fails`, `C121_evidence`, `C121_inf_threshold`, `C121_inf_dead`.
  Note: Proved for all runs without plus infinity except that the first particles are not checked: one with NaN or minus infinity can be saved, and a single such sample makes the effective sample size NaN; both are proved. Plus infinity can become a threshold, and such a level is dead.
* **C122 Prior ranges hold in floating-point arithmetic** (partial) — `Model/Round.lean` repeats `mod`, `dnest_wrap`, `from_prior_con` and `perturb_con` with a rounding after every operation; the rounding is any map to a nearest member of the representable numbers (`Spec/Round.lean`), for the doubles `F64` (`m 2^e`, `|m| <= 2^53`, `e >= -1074`, no overflow), for which one exists (`f64_nearest_exists`). Proved: the lower limit always holds and the upper is passed by at most twice the rounding error of the width (`C122_wrap`, `C122_overshoot`, `C122_run_partial`); with doubles only a proposal less than `2^-51` widths below the lower limit can pass it (`C122_inside`). Violated: `C122_fails` and `C122_run_fails` give a range and a move, wrong for every tie rule.
  Theorems: `C122_wrap`, `C122_overshoot`, `C122_inside`, `C122_run_partial`, `C122_fails`, `C122_run_fails`.
  Note: The lower limit always holds; the upper can be passed by at most twice the rounding error of the width, only for proposals less than 2^-51 widths below the lower limit; a range and a move that do it are given for every rounding to nearest.
* **C123 Default prior and default moves of the sampler library agree** (partial) — The default callbacks are modelled in `Model/Defaults.lean`; the prior is a product of densities (`Spec/Defaults.lean`). Ranges: `C123_draw`, `C123_move`. Steps: both default moves meet the same condition as the moves of C109 (`def_keeps`), so a whole step preserves the mixture of constrained priors (`C123_step`). First particles: equal to the prior for flat and logarithmic priors (`C123_first_partial`, change of variables). Violated for Gaussian priors, whose draws are folded into the range (`C123_first_fails`, for every symmetric range of at least two deviations).
  Theorems: `C123_draw`, `C123_move`, `C123_step`, `C123_first_partial`, `C123_first_fails`.
  Note: Ranges and invariance of whole steps hold for all prior types; the first particles have the law of the prior for flat and logarithmic priors, and not for Gaussian ones (proved for symmetric ranges of at least two deviations).
* **C124 Function sets are completed according to the options of the call** (partial) — `checkFptrset`, `dnestBegin`, `dnestCalls` in `Model/Defaults.lean`. `C124_complete`: what is kept and filled in; `C124_chosen`: exactly which default move each call of a sequence gets, by induction on the calls. Violated: the set is completed before the options are read, so the option of the previous call decides (`C124_limit_fails`); `C124_plain_partial` is what remains.
  Theorems: `C124_complete`, `C124_chosen`, `C124_plain_partial`, `C124_limit_fails`.
  Note: What is kept and completed is proved for all function sets and sequences of calls; the option -l acts on the default move of the next call instead of its own.
* **C125 When the number of levels is automatic, levels stop being added once they flatten** (proved) — `Spec/AutoLevels.lean` states the rule in terms of the thresholds (`GapsChecked`, `Flattened`). `C125_rule`: `enough_levels` answers yes iff there are at least 10 levels and the thresholds are flat, and 1000 levels end the program; `C125_gaps`: which growths are looked at; `C125_at_least`: 22 levels are needed in fact (not 10, since the first level has threshold `-DBL_MAX`); `C125_run`: in a run the number of levels stays open exactly until the thresholds are flat, and is final then.
  Theorems: `C125_rule`, `C125_gaps`, `C125_at_least`, `C125_run`.
  Note: enough_levels with the number of levels left open, in exact arithmetic; the threshold growths are compared as reals.
* **C126 Data sets that share nothing can be analysed together or separately** (proved) — Configurations of the parts: `firstSets`, `lastSets` (`Spec/Independent.lean`); `partsOf` takes the parameters of the joint run apart. The places are a bijection, the allowed regions, the log-priors and the base measures split (`Proof/Independent*.lean`), so `C126_prior`. `C126_likelihood`: the covariance matrix of a data set depends on its own parameters only (`ParsMoved.cov`), the loop over data sets adds up (`loop_parts`). `C126_evidence`, `C126_posterior`: by Fubini; `C126_run` puts all together for `prob_line_variability4`. The separate runs are taken to use the same ranges (lag limits, time span, cadence) and the same results of the continuum stage.
  Theorems: `C126_prior`, `C126_likelihood`, `C126_evidence`, `C126_posterior`, `C126_run`.
  Note: Separate runs use the same ranges and the results of the continuum stage of their own data sets; exact arithmetic; measurability and computability of the likelihoods on the allowed region are hypotheses.
* **C127 Options of the sampler library mean the same in any order and in every call** (partial) — `Model/LibArgs.lean`: the variables of `dnest()` that options change, the reset at the start of a call, the switch and the loop around `getopt` (model of C77). `Spec/LibArgs.lean`: what a list of options asks for, from the grammar of command lines only. `C127_call`: exactly what a call makes of its options from any state; `C127_asked_partial`: it does what is asked unless `-t` stands in front of `-p` or a compression was given to an earlier call; `C127_order_partial`: order of options given once; `C127_calls`: induction over the calls of a process; `C127_refused`: values that end the program. Negations: `C127_fails_order`, `C127_fails_again`, `C127_fails_compression`.
  Theorems: `C127_call`, `C127_asked_partial`, `C127_order_partial`, `C127_calls`, `C127_refused`, `C127_fails_order`, `C127_fails_again`, `C127_fails_compression`, `C127_action`.
  Note: Violated by the code: -t before -p loses the temperature, -m stays for later calls, a non-positive compression is accepted. The exact effect of every call is proved.
* **C128 The transfer functions plotfig.py writes are those of the fitted model** (partial) — `Model/PlotFig.lean`: the index arithmetic, the loop of `_calculate_tran` with the local variable `idx_tau` that may have no value, `np.quantile`. `C128_columns`: the columns read are those of `idx_line_pm` of the C code. `C128_exact`, `C128_transfer_partial`: the loop computes the sum of the components; it is the transfer function whose convolution integrals the likelihood uses (`transfer`, C61), except at a lag exactly where an exponential function begins. `C128_pmap`: the same in photometric mode for Gaussians and top hats, with the ratios of C83. `C128_pmap_exact`: what comes out for gamma and exponential functions; `C128_pmap_partial`, `C128_pmap_fails`. `C128_rows`: quantiles by counting in the sorted list (`Proof/Quantile.lean`). `C128_runs`, `C128_runs_mmap`: which results are plotted. Not modelled: figures, `configparser`, formatting of numbers.
  Theorems: `C128_columns`, `C128_exact`, `C128_transfer_partial`, `C128_pmap`, `C128_pmap_exact`, `C128_pmap_partial`, `C128_pmap_fails`, `C128_rows`, `C128_runs`, `C128_runs_mmap`.
  Note: Violated in photometric mode with gamma or exponential functions, at the onset of exponential functions, and in the choice of results in the mixture model; exact results are proved for these.
* **C129 The lags plotfig.py prints are centroids of the fitted transfer functions with 68.3% limits** (proved) — `C129_centroid`, `C129_centroid_pmap`: the quotient of the two sums is `∫ s ψ / ∫ ψ` by `C61_transfer`. `C129_between`, `C129_limits` (counting, as in C128), `C129_order` (the sorted list depends on the multiset only), `C129_shift`. Not modelled: rounding to three decimals.
  Theorems: `C129_centroid`, `C129_centroid_pmap`, `C129_between`, `C129_limits`, `C129_order`, `C129_shift`.
  Note: Real arithmetic; rounding of the printed numbers is not modelled.
* **C130 Every panel of the plotting scripts shows the light curve it belongs to** (partial) — `Model/PlotPanels.lean`: slices, running sums, the loops that fill the indices. `C130_panels`, `C130_trend`: induction over the data sets, any shape of file. `C130_nmap_partial`, `C130_nmap_fails`: continuum-only plots against the light curves the C code reads. plotdecomp.py: `C130_decomp_partial` (one data set), `C130_decomp_sets` (always an exception with more), `C130_decomp_mean`, `C130_decomp_tran_partial` (same transfer function as plotfig.py), `C130_decomp_exp`. The files are taken as concatenations of the rows of the light curves; reading of text by `np.loadtxt` is not modelled.
  Theorems: `C130_panels`, `C130_trend`, `C130_nmap_partial`, `C130_nmap_fails`, `C130_decomp_partial`, `C130_decomp_sets`, `C130_decomp_mean`, `C130_decomp_tran_partial`, `C130_decomp_exp`.
  Note: plotfig.py: proved for all files outside the mode nmap with empty light curves; plotdecomp.py: violated with two or more data sets, for means with negative responses and exponential functions in photometric mode.
* **C131 The sampler can get everywhere** (proved) — `Spec/Reach.lean`: runs of `samplerMove` (both moves of a step, in either order) of one particle. `C131_continuum`, `C131_line`: induction over the number of parameters that differ from the target; with ordered lags the parameter to move is chosen so that the target lies between its neighbours. Level moves go to any level the particle is above. All acceptance numbers of the path are positive. The targets leave out the upper ends of ranges and equal lags of the ordered prior, which moves never produce. The virtual-continuum mode does not have the property (`C51_frozen`).
  Theorems: `C131_continuum`, `C131_line`.
  Note: Any start, any target, any level above whose threshold the target is; virtual-continuum mode excluded (C51_frozen).
* **C132 Mock light curves follow the transfer function they are made with** (partial) — `Model/Mock.lean`. `C132_circular`: the product of the half spectra is the circular convolution (orthogonality of roots of unity, the conjugate half put back). `C132_response`: with the shift by the first lag and `np.interp` on grid points, the sum over all lags, if the times needed lie in the simulated span; `C132_simlc`: for the sizes of `simlc`. `C132_ratios`, `C132_area`: normalisation. `C132_shapes_partial`: Gaussian, gamma and exponential are those of the fitted model (`tfDens`). `C132_tophat`: a top hat is entered by its full width, the fitted model's width is the half.
  Theorems: `C132_shapes_partial`, `C132_tophat`, `C132_ratios`, `C132_area`, `C132_circular`, `C132_response`, `C132_simlc`.
  Note: Proved except that a top hat is entered by its full width while the fitted model uses the half width (C132_tophat).
* **C133 The mock continuum has the variance asked for** (partial) — `C133_psd`: the spectrum integrates to the variance asked for. `C133_cov_partial`: exact mean and covariance of the simulated values for uncorrelated random numbers (the curve is a linear form in them). `C133_variance`, `C133_fails`: the sum over frequencies is at most the integral (a decreasing function), and the prefactor 1/(2 N DT) is `df/(2W)`, so the variance is about a tenth of what is asked for, at most a fifth.
  Theorems: `C133_psd`, `C133_cov_partial`, `C133_variance`, `C133_fails`.
  Note: Mean and covariance are proved exactly; the variance claim is false (C133_fails): the normalisation is W=10 times too small.
* **C134 The unit of time does not matter** (partial) — `Model/ConRanges.lean` (set_par_range_con). `C134_con`, `C134_line`, `C134_vmap`: every covariance function is a function of ratios of times (one lemma per formula), the covariance of the data is the same matrix, and the trend matrix is multiplied by a diagonal of powers of the unit, whose determinant comes out of the marginal likelihood as a constant. `C134_mixture_partial`: mixtures of types, away from the threshold `EPS`; `C134_mixture_fails`: at the threshold the value does depend on the unit. `C134_prior_partial`: which ranges follow the unit; `C134_prior_fails`, `C134_prior_empty`: the range of the amplitude and the lower limit of the damping time do not, and for light curves shorter than 1/(2 pi) of the unit the continuum stage ends the program at the first move of a damping time.
  Theorems: `C134_con`, `C134_line`, `C134_vmap`, `C134_mixture_partial`, `C134_mixture_fails`, `C134_prior_partial`, `C134_prior_fails`, `C134_prior_empty`.
  Note: Likelihoods proved for one type of transfer function and, away from the absolute threshold EPS, for mixtures. The prior ranges of damping time and amplitude are absolute numbers; negations proved.
* **C135 Close to the damping timescale the covariances are right to about one part in ten thousand** (proved) — `Proof/BandError*.lean`: the exact covariances are Lipschitz in the width (`Stretch.covLC_lip`, `Stretch.covLL_lip`, from the mean of the profile and `|exp(-|a|) - exp(-|b|)| <= |a-b|`), the limiting formula is the exact one with the width put equal to the damping timescale up to terms bounded by elementary inequalities. `C135_con_line`, `C135_lines`, `C135_line_self` bound the entries, `C135_posdef` follows by a perturbation argument from the exact matrix being positive semi-definite, `C135_likelihood` from C26 and C27. Complements the exact statements of C30, C33-C35, which exclude the band, and `C30_band`, which shows that some noise is needed.
  Theorems: `C135_con_line`, `C135_lines`, `C135_line_self`, `C135_posdef`, `C135_likelihood`.
  Note: error bounds in the band for one type of transfer function; mixed pairs only outside the threshold of their formula
* **C136 A model with more components contains those with fewer** (proved) — Every formula of the covariance functions is linear in the amplitudes (one lemma per formula); with that the sums over the components of the larger model are those of the smaller (`C136_likelihood`, `C136_vmap`). `C136_prior`: the last component of every line is split into two halves; ranges, fixed values, copies of shared lags and widths and the order of the lags are checked one by one.
  Theorems: `C136_likelihood`, `C136_vmap`, `C136_prior`.
  Note: Prior part for type_lag_prior 0; with fixed lags or lag windows the larger model's lags are others. Penalties for negative lags and gaps not included.
* **C137 Measurements taken at the same time may be averaged** (proved) — A linear map of determinant 1 takes the two values to difference and weighted average; it decouples the difference from all other data, has no trend, and its probability is the constant (`margLLN_merge`). `C137_line`, `C137_con`: the same for the likelihood functions of the code, with the positions of the points in the concatenated arrays. The theorem is about the data as the likelihoods get them, after the division by the mean flux.
  Theorems: `C137_line`, `C137_con`.
  Note: About the data as the likelihoods get them (after normalisation by the mean flux, which the average changes slightly).
* **C138 More or better measurements never make a reconstruction less certain** (partial) — The weights of the best prediction from the smaller data set, continued by zeros, are unbiased for the larger one and have there no larger mean squared error (`predErr_more`); the reconstructions are best predictions (C38, C84). `C138_con_partial`, `C138_line_partial` (any covariance functions), `C138_transfer_partial` (transfer functions of the code: errors are numbers), `C138_vmap_partial`. Hypothesis: no total error grows. `C138_fails`: the systematic error is a multiple of the mean measurement error, so a further poor measurement can widen the band. Data sets without lines are excluded as in C38.
  Theorems: `C138_con_partial`, `C138_line_partial`, `C138_transfer_partial`, `C138_vmap_partial`, `C138_fails`.
  Note: Proved when no total error grows; false otherwise: the systematic error is a multiple of the mean measurement error (C138_fails). Data sets with at least one line in the line stage.
* **C139 What a measurement adds to the likelihood is its probability given the reconstruction from the others** (partial) — `margLL_chain`: the quadratic form is `f . u` for the solution of `C u + L b = f`, `L^T u = 0`; the solution with one measurement more is that without it corrected along the weights of the best prediction, and the determinant of the matrix bordered by the trend gets the factor `V` (Schur complement of one row). The prediction and its error are those of the reconstruction (C38). `C139_con` (both continuum likelihoods and both reconstructions), `C139_line_partial` (four line likelihoods, three reconstructions). `C139_con_limit`, `C139_line_limit_partial`: as the error `x` of a measurement grows, log-likelihood plus `log x` tends to that without the measurement. Partial for lines: widths in the band around the damping timescale are excluded and all measurements have noise (as in C38 the errors are then numbers). The mean error of the light curve enters the systematic error, so the hypothesis is that the systematic error stays the same (always so in the default, where it is fixed to zero).
  Theorems: `C139_con`, `C139_con_limit`, `C139_line_partial`, `C139_line_limit_partial`.
  Note: Proved in full for the continuum stage; for lines outside the band around the damping timescale and with noise in all measurements.
* **C140 No direction of time for symmetric transfer functions** (proved) — The covariance functions with opposite lag at the opposite time difference have the same value: the two terms of the Gaussian ones change places, the branches of the top-hat ones are exchanged in pairs (at the boundaries the two expressions agree), Gaussian with top-hat by `erfc(-x) = 2 - erfc x`. `mirror_points`: the points of the reversed light curves are those of the original ones in another order; the trend functions get the factors `(-1)^j`, a matrix of determinant of modulus one (`margLL_signs`). `C140_con`, `C140_line`, `C140_vmap`. `C140_exp_fails`: no exponential component of any amplitude, lag and width does this for an exponential component.
  Theorems: `C140_con`, `C140_line`, `C140_vmap`, `C140_exp_fails`.
  Note: Exact in real arithmetic, including mixtures of Gaussian and top-hat components and any number of lines.
* **C141 The line stage keeps what the continuum stage found** (proved) — `LineCfg.afterCon` puts the output of `summary` (the mean and standard deviation loops of mc_con) into the configuration of the line stage. `outside_five` (Chebyshev for the sample) and `farthest` (Samuelson, by Cauchy-Schwarz on the other values) give `C141_range`. `C141_held`: with zero standard deviation the range is a point, `dnest_wrap` returns it for every argument, and `logH` is 0/0, which the acceptance test rejects; `C141_single` joins the two for a sample of one point. The sample is that read back from the file, whose values have six decimals. `C141_ratio`: with a standard deviation that is not zero, moves are accepted with the Metropolis probability of the normal prior.
  Theorems: `C141_range`, `C141_held`, `C141_single`, `C141_ratio`.
  Note: Sample as read back; double arithmetic of logH without rounding.
* **C142 Only the order of likelihoods matters to the sampler** (proved) — A simulation (`run_by`, Proof/Relabel.lean) through every function of the sampler: all comparisons are between likelihoods of the run and the lowest threshold, whose order is kept; sorting commutes with an increasing function. `C142_order` for a given number of levels. For automatic levels the differences of thresholds count too: `scan_shift` shows that they are unchanged, but the one to the lowest threshold, which is huge in both runs. `C142_shift` adds the postprocess (C20_shift, and the lowest threshold does not matter there). Values within 1.1 ptol of -DBL_MAX are excluded. Proposals are inputs of the model; those of the program are functions of parameters, limits, levels and random numbers, which are equal in the two runs. With C94 and C95, which say that units change the likelihood by a constant, the units of the data do not influence a run.
  Theorems: `C142_order`, `C142_shift`.
  Note: Whole runs; C142_shift includes automatic levels and the postprocess.
* **C143 The transfer functions of the likelihood and of the figures are those asked for** (partial) — `tfUsed` (Model/TfChoice.lean) is the choice of the function pointers in `init` and of the entries of the mixture, `plotTfText`/`plotTfAt` what the figures are given and draw. `C143_name` and `C143_mix`: after any history of `setup` calls (C117) likelihood and figures use what the last call asked for. `C143_file_partial` and `C143_file_mix`: the same for accepted parameter files, through every check of the configuration. The rest is false: `C143_unknown` (numbers outside 0 to 3), `C143_digit` (digits given to classes other than mixtures).
  Theorems: `C143_name`, `C143_mix`, `C143_file_mix`, `C143_file_partial`, `C143_unknown`, `C143_digit`.
  Note: Names in Python, digits of mixtures and the numbers 0 to 3 select the documented functions in likelihood and figures. Other numbers, and digits given to other classes, are accepted and silently mean exponential or Gaussian functions (C143_unknown, C143_digit).
* **C144 The evidence is the mean likelihood of each level weighted with its prior mass** (proved) — `inLevel`, `gapMass` and `meanIn` (Props/LevelMean.lean) are stated from the levels and samples alone. `C144_weights`: the trapezoidal masses of the model `postprocess` are `ΔX/(n+1)` for each of the n samples of a level. `C144_evidence`: the exact formula for the reported evidence. `C144_accuracy` and `C144_all`: the bounds by `log(1+1/N)`.
  Theorems: `C144_weights`, `C144_evidence`, `C144_accuracy`, `C144_all`.
  Note: exact formula for the reported evidence, and its distance from the sum of prior mass times mean likelihood
* **C145 get_evidence hands out the evidences of the last computation** (partial) — `EvObj` (Model/PyEvidence.lean): the object with the block behind `logz_line`, the flags (Model/PySession.lean) and the evidence files; `evRun` executes any session. `C145_run_partial`: for every session and every computing call the dictionary and the file hold the evidences of that call; `C145_flag` says from the history which calls compute; `C145_null` is the null model. The rest is false: `C145_names` (print_para_names puts zeros), `C145_file` (objects made from a parameter file write through NULL), `C145_before` and `C145_mixture` (memory never written is read).
  Theorems: `C145_run_partial`, `C145_flag`, `C145_null`, `C145_names`, `C145_file`, `C145_before`, `C145_mixture`, `C145_con`.
  Note: holds for computing calls after setup (one number of components for mixtures); the rest is false, see C145_names, C145_file, C145_before, C145_mixture
* **C146 From the first draw to the posterior sample file, every vector is inside the prior and carries its own likelihood** (proved) — `roundP` and `WholeRun` (Model/Whole.lean) are the sampler with the models' own draws and moves, resumed in any way. `roundP_up` (Proof/Whole.lean) shows by induction over the steps that each round is a round of Model/Sampler.lean with some proposals, or has stopped, and that what a model's move keeps all particles keep; `C146_con_refines`, `C146_line_refines` put every state among those of C93. `C146_con`, `C146_line` (the vectors and their likelihoods), `C146_con_safe`, `C146_line_safe` (no undefined behaviour), `C146_posterior`, `C146_posterior_line` (the text of the posterior sample, with C103). `whole_run` is a run with a move, a level, a saved sample and a resumption.
  Theorems: `C146_con_refines`, `C146_line_refines`, `C146_con`, `C146_line`, `C146_con_safe`, `C146_line_safe`, `C146_posterior`, `C146_posterior_line`.
  Note: doubles are reals, likelihood any function with values of at least the lowest double; the option of positive lags is excluded (C47 tells what it breaks), and the velocity-resolved model has its own moves
* **C147 The size of a step comes from the level below and never exceeds the prior** (proved) — `WholeRun` (Model/Whole.lean) is the sampler with the models' own draws and moves. By induction over it (`width_inv`, Proof/Width.lean): the limits of every level are those of the start or an interval inside the prior, and those of a level that a particle is in are an interval; limits are nested also after resuming (`sessions_limInv`). `C147_con`, `C147_line`: which limits give the width, and its bounds, between rounds; `C147_con_order`: higher levels have no wider steps; `C147_con_call`, `C147_line_call`: every moment inside a round; `C147_used_con`, `C147_used_line`: the proposal depends on the limits only through the width.
  Theorems: `C147_con`, `C147_line`, `C147_con_order`, `C147_con_call`, `C147_line_call`, `C147_used_con`, `C147_used_line`.
  Note: All of it for the continuum and line models; the case inside a round that is excepted in the statement is left exactly as C147_con_call and C147_line_call say.
* **C148 The evidence lies between the likelihoods of the samples, and falls as it should with the temperature** (proved) — On the model of postprocess (Model/Postprocess.lean). `C148_masses` gives the masses once for all temperatures and writes evidence and information as finite means; `C148_bounds` the bounds; `C148_gibbs` the inequality between two temperatures (Jensen), from it `C148_hotter`; `C148_temper` by the power mean inequality. `C148_con`, `C148_line`: with C146, the evidence of a run lies between any bounds of the likelihood on the prior (likelihoods as in memory, before the digits of the sample files).
  Theorems: `C148_masses`, `C148_bounds`, `C148_gibbs`, `C148_hotter`, `C148_temper`, `C148_con`, `C148_line`.
  Note: on the reals; the evidence is that of the samples handed to postprocess
* **C149 Whole runs in the virtual-continuum mode, and with likelihoods that are not numbers** (partial) — Model/WholeFl.lean: the sampler of Model/SamplerFl.lean with proposals and `logH` computed by the model's own perturb. Each round is shown to be a round of that sampler with some proposals, and this a round of the real sampler (C121), by induction over rounds. `C149_vmap_partial`, `C149_vmap_safe`, `C149_con`, `C149_line` (never plus infinity). The last claim on the virtual-continuum mode is false: `C149_frozen` proves that the continuum parameters of every particle and saved sample are those of one of the first draws (C51, now through the whole sampler). `fwhole_run`: a run with a saved sample.
  Theorems: `C149_vmap_partial`, `C149_vmap_safe`, `C149_frozen`, `C149_con`, `C149_line`, `fwhole_run`.
  Note: Partial: the continuum parameters are not sampled in the virtual-continuum mode (C149_frozen); every data set needs a line, the positive-lag option must be off, ordered lags need a range starting at zero.
* **C150 Whole runs in photometric mode keep every limit the user gave, from the first draw to the posterior sample file** (partial) — `pmapCfg` (C82) gives the parameters of the mode, the whole sampler is that of C146. `C150_pmap_partial`: every moment of every run, with resumptions; `C150_posterior_partial`: up to the text of the posterior sample file (C103). The claim that the run never stops by itself is false: `C150_stop` proves that with an upper width limit below one day for a later component a round that begins with a move of that width ends the program, at whatever moment of whatever run. A lower width limit above 0.01 does not hold for the first component (`C82_first_width`).
  Theorems: `C150_pmap_partial`, `C150_posterior_partial`, `C150_stop`.
  Note: Partial: with an upper width limit below one day for a later component the program stops (C150_stop), a lower limit above 0.01 does not hold for the first component, and the positive-lag option must be off.
* **C151 The progress bar tells the truth and never stops a run** (partial) — Model/Progress.lean: `pb_init` and `pb_print` with their character arrays, 32-bit integers, and `float` arithmetic as real arithmetic with any rounding right to 24 binary digits. `C151_text` gives the printed text, `C151_full` the full bar at the end, `C151_run_partial` every state of a run of the sampler, `C151_rec` reconstructions and decompositions. False: `max_num_saves = 0` divides by zero before the first step although the main loop means it as without end (`C151_endless`); from 21474837 saves on the percentage overflows (`C151_overflow`); an empty posterior sample divides by zero (`C151_rec_empty`); `pb_init` does not set `showCount` (`C151_init`; both callers do). Sessions: `C151_session` for every save of a resumed run; false at its start, where 0 is shown whatever the snapshot holds (`C151_resumed`).
  Theorems: `C151_text`, `C151_full`, `C151_run_partial`, `C151_rec`, `C151_endless`, `C151_overflow`, `C151_rec_empty`, `C151_init`, `C151_session`, `C151_resumed`.
  Note: Partial: without a limit on the saves the bar divides by zero (C151_endless), from 21474837 saves on it overflows (C151_overflow), and an empty posterior sample divides by zero (C151_rec_empty). The first bar of a resumed session shows 0 samples (C151_resumed).
* **C152 A run starts exactly if its directories are there** (partial) — Model/StartDir.lean: a file system as a function from absolute paths, POSIX lookup of names (`.`, `..`, repeated and final slashes), `stat`, `fopen` for writing, `mkdir`; `startRun` is the order in which `begin_run` and the first stage look for and open files. `C152_needs`: what every started run had, and that its directories are unchanged; `C152_start`: this suffices, with the exact file system afterwards; `C152_no_ub`; `C152_here_partial`: the full equivalence if FileDir names the current directory. False otherwise: `begin_run` looks for data/ and param/ in the current directory whatever FileDir is (`C152_refused`, `C152_elsewhere`), and without FileDir the run works in the root of the file system (`C152_unnamed`). `C152_check`: the sampler's check; a file in place of the directory is not noticed because the name is always given with a final slash. `C152_python`: the constructor of the Python class makes what is missing and nothing else. Permissions, links and full disks are not modelled.
  Theorems: `C152_needs`, `C152_start`, `C152_here_partial`, `C152_refused`, `C152_elsewhere`, `C152_unnamed`, `C152_no_ub`, `C152_check`, `C152_python`, `C152_python_gone`.
  Note: False for a FileDir other than the current directory and for a missing FileDir (negations proved); permissions and links are not modelled.
* **C153 Objects of the Python interface do not disturb one another** (partial) — Model/PyObjects.lean: a process with the C globals (settings, prior file) and any number of objects, each with its own settings, flag and array of evidences; `objSession` is any sequence of `setup`, `set_priors`, `run`. `C153_exact`: for every session, what a run uses in terms of the history of calls alone, and exactly when it writes outside the array of evidences. `C153_own_partial`: the claim, for an object after whose last `setup` no other was set up, if prior files are given to it alone and nothing was raised. False otherwise: settings of another object are used (`C153_other_settings`), the array of evidences is overrun if that one has more numbers of components (`C153_overrun`), prior files are used by every other object (`C153_other_prior`) and after a refusal (`C153_refused`), which cannot be taken back (`C153_refused_stays`); `C153_long_name`: names of 256 characters or more overrun `prior_file`. `C153_evidence_label`, `C153_evidence_unwritten`, `C153_evidence_overrun` (Model/PyObjEvidence.lean): what `get_evidence` then hands out. Not modelled: objects made from a parameter file, settings other than the numbers of components and the data file, data handed over as arrays (all objects write them to the same file).
  Theorems: `C153_exact`, `C153_own_partial`, `C153_other_settings`, `C153_overrun`, `C153_other_prior`, `C153_refused`, `C153_refused_stays`, `C153_long_name`, `C153_evidence_label`, `C153_evidence_unwritten`, `C153_evidence_overrun`.
  Note: What a run uses is given exactly for every session; the claim holds for an object used alone without exceptions. It is false in general: settings and prior file are shared by all objects, the array of evidences can be overrun, and a refused prior file stays in force.

## Disagreements between the code and its documentation or evident intent

Each is proved on the model with a concrete witness; the theorem is named.  Line numbers refer to `/repo`.

* Sampler library (`cdnest`): compression 1 is accepted and reads outside the buffers (`C13_compression_one`); zero
  thread steps likewise (`C13_zero_steps`, `C69_zero_steps`), and the product of tasks and steps can wrap (`C69_wrap`);
  saves × interval wraps at 32 bits (`C16_overflow`); the restart file holds 4 of the 8 bytes of the step counter (`C17_long_run`);
  after a restart a particle whose likelihood has dropped below the first level underflows its level (`C18_underflow`); a sample alone in its level gets 0/0 as
  prior mass (`C23_lone_sample`); comparators return only 0 or 1, which ISO C does not allow (`C12_not_iso`); a lower patch version is reported as equal
  (`C52_lower_patch`).
* Likelihood of lines: the block inversion leaves the matrix uninverted when there is only one block, i.e. for data sets without lines
  (`C25_no_band`, `C26_no_line`, `C38_no_line`, `C75_used`) and, in the virtual-continuum model, for data sets with one line
  (`C76_one_line`).  Reconstruction of a data set without lines and trend writes one element behind the workspace (`C79_no_line`).
* Covariances: in a band of relative (mixed types: absolute) width 1e-5 around the damping timescale limiting formulas are
  used, which are not the integrals (`C35_band`), not symmetric (`C36_band`) and not positive semi-definite
  (`C30_band`).  The decomposition of lines tests 1/timescale instead, a much wider band for long timescales (`C80_band`), and for
  mixtures takes the variance from `TypeTF` (`C80_mixture_error`, line_decomp_mmap.c:724).  `lndet_mat3` is wrong for 2×2 pivots, which do not occur for
  covariance matrices (`C60_indefinite`).
* Priors and moves: with the positive-lag option the initial draw tests amplitude and lag instead of lag and width (`C47_initial`,
  `C46_positivity`); fixed lags use the range before it is cut to half the time span (`C45_clipped`); shared transfer
  functions with more lines in a later data set use indices never set (`C63_more_lines`); the uniform seasonal gap is that of the last data
  set (`C64_uniform`); in the virtual-continuum model no change of a continuum parameter is ever accepted
  (`C51_never`, `C51_frozen`, and through the whole sampler to the saved samples `C149_frozen`), the first lag is set to zero after sorting (`C74_ordered_exit`, `C74_ordered_range`) and a data
  set without lines reads uninitialised memory (`C74_no_line`); `StrRatioPrior` with two pairs is undefined (`C49_ratio_pairs`); `StrGapPrior`
  for the second data set starts one value early (`C49_gap_shift`); in photometric mode the lower width limit is raised to one day even above the upper
  one, which stops the program at the first move of that width (`C82_width_stop`, at any moment of a run `C150_stop`, mc_pmap.c:214), and that of the first component is lowered to 0.01 (`C82_first_width`).
* Input: tags without value are ignored even if unknown (`C40_no_value`), two spellings of one option depend on the order
  (`C40_alias`); some options are not validated (`C41_flags`, `C41_lag`, `C41_mixture`); in the mixture mode `TypeLagPrior` is ignored
  unless the number of components is also given (`C41_mixture_prior`, read.c:424); an empty line light curve before a non-empty one leaves
  a count unset (`C42_empty_line`); mode nmap with a data set without lines writes through a null pointer (`C42_nmap_single`); negative numbers of points are not rejected (`C42_negative`); if header lines are missing the last line is used again (`C42_short_header`);
  parameter-name files with comments or blank lines hang, a last line without newline is lost, negative indices are written (`C56_comment`, `C56_blank`,
  `C56_last_line`, `C56_index`); options are handed to the sampler with two decimals (`C68_small`); negative `LagLimitUpp` is replaced (`C71_negative_limit`);
  coincident times give a logarithm of zero (`C71_same_times`); seasonal gap of few points reads in front of the array (`C73_few_points`).
* Output: virtual-continuum runs print a light curve without points (`C70_vmap`) and an uninitialised normalisation (`C43_vmap_file`); one
  reconstruction node divides by zero (`C67_one_node`); for virtual-continuum data with only negative times the nodes go on to zero (`C85_negative_times`,
  mc_vmap.c:796); printed times of short data sets collide
  (`C72_short_set`, `C72_zero`); restart files of pmap/vmap runs overwrite each other (`C66_pmap`); the root task does all of the remainder of the work (`C44_unbalanced`);
  elapsed time overflows (`C55_overflow`).
* Runs: names in front of `--` are dropped (`C87_fails_dashes`), names of 256 characters or more overflow (`C87_fails_long`, main.c:100-120), `-:` is let
  through (`C87_fails_colon`); the sampler's arrays hold 156 characters where the caller's hold 256, so that long directory names overflow
  (`C88_con`, `C88_line`, `C90_fits_con`); `-r` never resumes the continuum stage, and in continuum mode samples nothing at all
  (`C89_fails_resume_con`, mc_con.c sets the post-processing flag); rows written after the last snapshot stay in the sample file on resumption, are used, and as
  many of the new ones are dropped (`C92_stale`, `C92_fails_stale`); snapshots can count rows not yet flushed, after which a resumed run cannot be
  post-processed (`C92_lost`, `C92_fails_lost`).
* A post-processing run rewrites the file of parameter names without having analysed the continuum: all continuum parameters get the range from 0 to 0
  (`C91_fails_post`), and a later run that loads this file, as docs/para_prior.rst proposes, stops (`C91_fails_reload`).
* Memory: `var_param`, `var_param_std`, `idx_con_pm` and the dictionary of the parameter file are never released (`C99_never_released`); the
  decomposition of the line loses one array per data set and stage (`C99_decomp_leak`, line_decomp.c:342-358); a program that calls the sampler twice, the
  second time without an optional array it gave the first time, releases that array twice (`C99_library_double_free`, dnest.c:1190-1201).
* Option files: the comment in both files lists "default values (if not specified)" that are not the defaults (`C100_comments`, init.c:435-444, 482-491 against
  dnest.c:1289-1297); a file that the sampler accepts can stop the program or be read out of bounds by its second reader, or give another number of particles
  (`C100_refuses_accepted`, `C100_exponent`, read.c:1351-1369); an option file for the continuum stage alone changes the number of particles of the line
  stage (`C100_override`); negative whole numbers are undefined behaviour (`C100_negative`).
* Decomposition files: docs/decomp.rst says that "comp1" means the first component, but the files start with "comp0" (line_decomp.c:214); the
  decomposition ignores `TimeRecLowExt` and `TimeRecUppExt`, so that its times differ from those of the reconstruction (`C101_window`, line_decomp.c:169-177
  against mc_line.c:357-365).
* Output as input: docs/getting_started.rst:481-487 says that `pall.txt` and the component files have "the same format as the input data". The component files
  put the header of each data set directly in front of its points (line_decomp.c:304-331), where the reader wants all headers first, so that with two or more
  data sets they cannot be read (`C102_comp_ub`, `C102_comp_fails`); the reconstruction of a virtual-continuum run is refused by such a run (`C102_vmap`);
  `pcon.txt` has no line counts and makes an nmap run read through a null pointer (`C102_nmap`).
* Digits of the sample files: thresholds of levels are printed with 12 digits (dnest.c:575), log-likelihoods of samples with 7 (dnest.c:666, 682). For
  log-likelihoods of a few thousand, samples within 0.0005 of a threshold are put on the wrong side of it by the post-processing and get the prior mass of
  another interval; the evidence can change by far more than the digits that are missing (`C104_fails`).
* Comments of mathfun.c: `lndet_mat2` is said to return -1 if an eigenvalue is negative (362-364) but does so for positive definite matrices whose rows
  are interchanged (`C106_sign2_fails`); `Chol_decomp_U` is said to give A = M^T M (430) but gives A = M M^T (`C106_chol`, `C106_chol_comment_fails`);
  `multiply_matvec_MN_transposeA` is said to read n and write m elements (95, 100) but reads m and writes n (`C105_vector_transposed`). The first two are
  never called, the callers of the third use it correctly.
* `get_posterior_sample_timelag(set, line)` and `get_posterior_sample_width(set, line)` (pymica.pyx:268-339) sum the lines of the data sets up to `set-1`
  exclusive, one short: for `set` ≥ 1 they return the lags and widths of the data set before (`C110_later`, `C110_later_wrong`). `pmap.setup` does not set
  `num_param_var`; for one data set the first "lag" of the first line is the logarithm of the damping timescale of the continuum (`C110_pmap`).
  `nlset` counts announced light curves without points, which the C code drops (`C110_dims_iff`).
* `prepare()` (pymica.pyx:477-495) takes the number of saves from the samples of the first number of components and uses it for all (`C111_first_only`); in
  `pmap`, `vmap` and `mmap` it always raises an error, because their snapshots are named `restart_dnest1d.txt_xxx` (`C111_other_modes`; docs/resume.rst:30).
* `run()` of the Python interface does not reset the flags set by `post_run()`, `decompose()`, `restart()` and `print_para_names()`: afterwards it samples
  nothing, or only the continuum, or resumes (`C112_run_after_post`, `C112_run_after_names`, `C112_run_after_restart`). `vmap.restart()` and
  `vmap.print_para_names()` run the continuum stage on data without continuum (`C112_vmap`).
* `gap_prior` of the Python interface stops the program whenever there are two or more data sets (`C113_gap_fails`): pairs are written without a separator
  (pymica.pyx:646-655), and docs/gap.rst:52 says that one pair is for all data sets. `ratio_prior` with two or more pairs is undefined behaviour
  (`C113_ratio`). `lag_prior` is silently ignored with one component (`C113_lag_one`). With 15 or more components the texts always overflow their arrays (`C113_fits`).
* `create_data_file` of the Python interface (pymica.pyx:108-150) writes times with `%e`: Julian days are rounded to whole days (`C114_julian`). A light
  curve that is `None` or empty in front of one with points is undefined behaviour in the C code (`C114_empty`). Arrays with four columns are misread without
  a message (`C114_four_columns`). `format_mica` writes fluxes and errors below 5e-7 as zeros (`C114_format_zero`); docs/format.rst calls it `format_data()`.
* `postprocess.py` moves a sample whose likelihood equals the threshold of the next level up (117-120), the C code leaves it where it is
  (dnestpostprocess.c:222-228); the evidences then differ (`C115_tie`, `C115_tie_fails`). With a single level or a single sample the script raises an
  exception (`genfromtxt` gives a one-dimensional array); the C code with a single sample divides zero by zero.
* The file `param/param_input` of a Python session does not repeat it: negative responses get lag prior 1 instead of 0 (`C117_negative`), the mixture model
  gets as many components as `type_tf` has digits and negative lags (`C117_mmap`), the options of the sampler are commented out (`C117_options`).
* `setup` called again keeps width limits, gap prior, lag prior (type 4), mixture and ratio prior of earlier calls when the arguments are left out
  (`C118_stays`, `C118_ratio`). `nmap.setup` ignores `flag_trend` (`C118_nmap_trend`).
* `setup` accepts settings that the C program refuses (`C119_unchecked`, `C119_other`).
* The first particles of the line run are not drawn from the prior: variability parameters are Gaussian numbers with the width of the range as deviation,
  wrapped into the range (`src/dnest_line.c` 465-469), while the moves use a Gaussian prior with the deviation of the continuum run (`C120_line_fails`).
* The first particles are taken whatever their likelihood is (`cdnest/dnest.c` 1137-1145). One whose likelihood is NaN or minus infinity stays in the first level
  until a proposal is accepted, and may be saved before (`C121_saved_fails`). A single such sample makes the effective sample size NaN, and converting it to
  the number of posterior samples is undefined (`C121_evidence_fails`).
* A likelihood of plus infinity is accepted and can become the threshold of a level in which nothing is accepted any more (`C121_inf_threshold`, `C121_inf_dead`).
* `dnest_wrap` computes `(y/x - floor(y/x))*x + min` (`cdnest/dnest.c` 1509-1530). For a proposal a hair below the lower limit the fraction rounds to 1, and the
  result is `max - min`, rounded, plus `min`, which can lie above `max` (`C122_fails`, `C122_run_fails`). The chance is about 1e-16 per move.
* The default `dnest_from_prior` folds a Gaussian number into the range, while the default moves preserve the Gaussian cut to the range (`cdnest/dnest.c` 2065-2166);
  the two distributions differ (`C123_first_fails`). MICA's drivers do not use the defaults.
* `dnest()` completes the function set before it looks for `-l` (`cdnest/dnest.c` 66, 1700), so the first call with `-l` gets the plain default move, and a call
  without `-l` after one with it gets the level-dependent one, which reads `limits` after it was released (`C124_limit_fails`).
* `dnest()` resets the temperature when it meets `-p` (`cdnest/dnest.c` 97-101), so `-t 2 -p` loses the temperature that `-p -t 2` keeps (`C127_fails_order`). The compression
  set with `-m` is not reset at the start of a call and stays for all later calls of the process (`C127_fails_again`). A compression of zero or below is
  accepted (`C127_fails_compression`), although `create_level` takes its reciprocal times a count as an array index (423).
* `plotfig.py` in photometric mode with gamma or exponential functions cuts all components where the first one begins (221-227, 250-256 use the `idx_tau` of the first), so
  that the plotted and written transfer function is wrong between the onsets, even large and negative (`C128_pmap_fails`).
* `plotfig.py` run from the command line needs `NumCompUpp` in the mixture model and plots the results only if it equals the number of digits of
  `StrTypeTFMix` (1033-1036, `C128_runs_mmap`). `param["TypeModel"] == 0` (1038) compares text with a number, so the lag limits of the parameter file are never used.
* `plotdecomp.py` raises an exception with two or more data sets (229 uses `nl`, which has no value yet; `C130_decomp_sets`), draws the mean of the first line into the
  panels of all lines (333, `C130_decomp_mean`), and has a factor too many for exponential functions in photometric mode (173, `C130_decomp_exp`).
* `plot_results_con` of `plotfig.py` counts light curves without points, which the C code skips (286, `src/read.c` 711-714), so later panels show nothing or
  other points (`C130_nmap_fails`).
* `genmockdata.py` takes the width of a top hat as its full width (268), the fitted model as the half width: a mock top hat of width `w` is fitted with width `w/2`
  (`C132_tophat`).
* `genlc_psd_drw` of `genmockdata.py` normalises with the step `DT` of the thinned curve (127) although it simulates with the step `DT/W`: the variance is `W = 10` times
  smaller than the integral of the power spectrum, which the comment says it equals (`C133_variance`, `C133_fails`).
* The prior of the damping time starts at one unit of time and that of `log sigma` is a fixed range (src/init.c:45-48): results depend on the unit of time of the data. With data that span less than
  1/(2 pi) units (50 days with the times in years) the range of the damping time is upside down and the program ends with status 0 at the first move of a damping time
  (`C134_prior_fails`, `C134_prior_empty`).
* The threshold `EPS` that tells a width from the damping time in mixtures is an absolute number of time units (src/mc_mmap.c), where the formulas for one type use the
  dimensionless ratio (`C134_mixture_fails`).
* The systematic error is a multiple of the mean of the measurement errors (`error_mean`, src/read.c 1040-1085): a further measurement with a large error bar makes the
  other measurements count less, and the reconstruction becomes less certain (`C138_fails`).
* Numbers other than 0 to 3 in `TypeTF` are accepted and mean an exponential transfer function (src/init.c), also together with `FlagLagPositivity`, which is refused for
  the number 3 (`C143_unknown`).
* `type_tf='1'` and other digits are accepted by `setup` of `gmodel`, `pmap` and `vmap` and mean Gaussians (`C143_digit`).
* `postprocess.py` raises an exception if there is one level or one sample, where the C program reports an evidence (`C115_one_level`).
* `prepare()` counts an unfinished row of the sample file as a save and looks for a snapshot that does not exist (`C111_cut`).
* An object of `gmodel`, `vmap` or `mmap` made with `param_file` and used without `setup` writes the evidence through a null pointer (`C145_file`).
* `print_para_names()`, and every `run()` after it, puts zeros in place of the evidences; `data/evidence.txt` keeps the old ones (`C145_names`).
* `get_evidence()` before a run, and of `mmap` with a range of numbers of components, reads memory that was never written (`C145_before`, `C145_mixture`).
* A particle that jumps over levels nobody has entered takes its next steps in that round from limits `(DBL_MAX, -DBL_MAX)`, whose difference overflows: the proposals are then not numbers (`C147_con_call` leaves exactly this case open).
* `weights.txt` has neither the tag nor the number of components in its name: every stage overwrites the weights of the stage before, and those of the continuum never survive a run with lines (`C90_fails_weights`, `C90_fails_last`).
* `MaxNumberSaves 0` means a run without end to the main loop of the sampler (dnest.c:227), but the progress bar printed at its start divides by it (`C151_endless`, progress-bar.c:128). From 21474837 saves on the percentage overflows an `int` (`C151_overflow`), and a reconstruction from an empty posterior sample divides by zero (`C151_rec_empty`).
* `begin_run` looks for `data/` and `param/` in the current directory although the run uses those of `FileDir` (run.c:27-36): a run with all it needs in `FileDir` is refused from elsewhere (`C152_elsewhere`). `FileDir` is the empty string by default (read.c:260), so that without it names such as `/data/normalization.txt` lead to the root of the file system (`C152_unnamed`).
* A resumed run first prints a bar with 0 samples, whatever the snapshot holds; resuming a complete run prints only that one and never ends the line (`C151_resumed`, dnest.c:219).
* The Python objects share the settings and the prior file of the C code, which `run` does not renew (pymica.pyx:666-676): `a.setup(); b.setup(); a.run()` analyses the data of `b` and writes past the end of `a`'s array of evidences if `b` has more numbers of components (`C153_other_settings`, `C153_overrun`). `set_priors` sets the flags before it checks and raises (pymica.pyx:466-471), and nothing resets them: the refused file is used (`C153_refused`), by other objects too (`C153_other_prior`).

