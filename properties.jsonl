{"id": "C01", "title": "Wrapping a proposal into a prior range", "statement": "Folding any real value into a parameter range [lo,hi) with lo<hi returns a value inside [lo,hi), leaves a value already inside unchanged, and differs from the input by a whole number of range widths.", "quantifier": "all real values, all ranges lo<hi", "why_tests_cant": "The claim ranges over a continuum of real parameter values and data sizes; a test evaluates finitely many points and cannot distinguish an exact identity from an agreement at those points.", "anchors": ["cdnest/dnest.c:mod", "cdnest/dnest.c:dnest_wrap"]}
{"id": "C02", "title": "Wrapping an index proposal", "statement": "Folding any integer proposal modulo a positive count returns an index in [0,count) congruent to the proposal; so a level index proposed this way always names an existing level.", "quantifier": "all integers, all positive counts", "why_tests_cant": "The claim ranges over a continuum of real parameter values and data sizes; a test evaluates finitely many points and cannot distinguish an exact identity from an agreement at those points.", "anchors": ["cdnest/dnest.c:mod_int", "cdnest/dnest.c:update_level_assignment"]}
{"id": "C03", "title": "Parameters never leave their prior ranges", "statement": "Starting from a draw of the prior, every free parameter of the continuum model stays inside its configured prior range after any number of perturbations, whatever the random numbers and whatever level-dependent step widths are in force.", "quantifier": "all parameter ranges, all initial draws, all finite sequences of perturbations, all random numbers and step widths", "why_tests_cant": "A test runs a handful of seeds; the claim is about every sequence of random numbers and every run length, so it needs an invariant proved by induction over the history.", "anchors": ["src/dnest_con.c:from_prior_con", "src/dnest_con.c:perturb_con", "cdnest/dnest.c:dnest_wrap"]}
{"id": "C04", "title": "Fixed parameters stay at their fixed value", "statement": "A parameter the user fixed has exactly its fixed value in the initial draw and after any number of perturbations.", "quantifier": "all sets of fixed parameters, all sequences of perturbations", "why_tests_cant": "A test runs a handful of seeds; the claim is about every sequence of random numbers and every run length, so it needs an invariant proved by induction over the history.", "anchors": ["src/dnest_con.c:from_prior_con", "src/dnest_con.c:perturb_con"]}
{"id": "C05", "title": "Nested-sampling level thresholds never decrease", "statement": "In every reachable state of a sampling run the log-likelihood thresholds of the levels form a non-decreasing sequence that starts at the lowest representable value, and existing thresholds are never altered when a level is added.", "quantifier": "all likelihood functions, proposals, random numbers, numbers of tasks and particles, run lengths", "why_tests_cant": "A test runs a handful of seeds; the claim is about every sequence of random numbers and every run length, so it needs an invariant proved by induction over the history.", "anchors": ["cdnest/dnest.c:do_bookkeeping", "cdnest/dnest.c:dnest_mcmc_run"]}
{"id": "C06", "title": "Each particle satisfies the likelihood constraint of its level", "statement": "In every reachable state every particle's log-likelihood is at least the threshold of the level the particle is assigned to, and the assigned level exists.", "quantifier": "all likelihood functions, proposals, random numbers, numbers of particles, run lengths, including level creation and particle replacement", "why_tests_cant": "A test runs a handful of seeds; the claim is about every sequence of random numbers and every run length, so it needs an invariant proved by induction over the history.", "anchors": ["cdnest/dnest.c:update_particle", "cdnest/dnest.c:update_level_assignment", "cdnest/dnest.c:kill_lagging_particles"]}
{"id": "C07", "title": "A particle's stored likelihood is the likelihood of its stored parameters", "statement": "In every reachable state the log-likelihood recorded for a particle equals the likelihood function evaluated at the parameters recorded for that particle.", "quantifier": "all likelihood functions, proposals, accept/reject decisions and particle replacements", "why_tests_cant": "A test runs a handful of seeds; the claim is about every sequence of random numbers and every run length, so it needs an invariant proved by induction over the history.", "anchors": ["cdnest/dnest.c:update_particle", "cdnest/dnest.c:kill_lagging_particles"]}
{"id": "C08", "title": "Counter consistency", "statement": "For every level in every reachable state the number of exceedances never exceeds the number of visits and the number of acceptances never exceeds the number of tries, also after counts of several MPI tasks are merged and after counts are renormalised.", "quantifier": "all histories, all numbers of tasks, all regularisation strengths", "why_tests_cant": "A test runs a handful of seeds; the claim is about every sequence of random numbers and every run length, so it needs an invariant proved by induction over the history.", "anchors": ["cdnest/dnest.c:update_particle", "cdnest/dnest.c:dnest_run", "cdnest/dnest.c:renormalise_visits"]}
{"id": "C09", "title": "Merging of task counts loses and duplicates nothing", "statement": "After a gather step each merged counter equals the value before the parallel phase plus the sum over all tasks of the increments made by that task.", "quantifier": "all numbers of tasks, levels and counter values", "why_tests_cant": "A test runs a handful of seeds; the claim is about every sequence of random numbers and every run length, so it needs an invariant proved by induction over the history.", "anchors": ["cdnest/dnest.c:dnest_run"]}
{"id": "C10", "title": "Prior-mass estimates decrease", "statement": "The estimated log prior mass of level 0 is 0 and the estimates never increase with level; they strictly decrease for a compression above one and positive regularisation.", "quantifier": "all counter values satisfying counter consistency, all compression >= 1, all regularisations", "why_tests_cant": "The claim ranges over a continuum of real parameter values and data sizes; a test evaluates finitely many points and cannot distinguish an exact identity from an agreement at those points.", "anchors": ["cdnest/dnest.c:recalculate_log_X"]}
{"id": "C11", "title": "A new level is the requested quantile", "statement": "When a level is added its threshold is one of the likelihoods collected above the previous top level, it is not below the previous top threshold, exactly floor(n/compression) collected values are carried over to the next level and none of those is below the new threshold.", "quantifier": "all collected likelihood sets of any size with ties, all compression > 1", "why_tests_cant": "The claim ranges over a continuum of real parameter values and data sizes; a test evaluates finitely many points and cannot distinguish an exact identity from an agreement at those points.", "anchors": ["cdnest/dnest.c:do_bookkeeping", "cdnest/dnest.c:dnest_cmp"]}
{"id": "C12", "title": "The sort used for quantiles sorts", "statement": "Sorting the collected likelihoods (and the posterior samples) yields a sorted permutation of the input although the comparison function never returns a negative number.", "quantifier": "all inputs, with ties", "why_tests_cant": "The claim ranges over a continuum of real parameter values and data sizes; a test evaluates finitely many points and cannot distinguish an exact identity from an agreement at those points.", "anchors": ["cdnest/dnest.c:dnest_cmp", "cdnest/dnestpostprocess.c:cmp_sample"]}
{"id": "C13", "title": "Buffers for collected likelihoods are never overrun", "statement": "No MCMC phase writes beyond the per-task buffer of collected likelihoods and the merged buffer is large enough for every gather step.", "quantifier": "all option values accepted by the option reader, all histories, all task numbers", "why_tests_cant": "A test runs a handful of seeds; the claim is about every sequence of random numbers and every run length, so it needs an invariant proved by induction over the history.", "anchors": ["cdnest/dnest.c:setup", "cdnest/dnest.c:dnest_mcmc_run", "cdnest/dnest.c:dnest_run"]}
{"id": "C14", "title": "Replacement of lagging particles is sound", "statement": "Replacing lagging particles overwrites a particle only by a copy of an existing particle that is not lagging, never changes a non-lagging particle, and is total (some particle always survives).", "quantifier": "all particle populations, level assignments and random choices", "why_tests_cant": "A test runs a handful of seeds; the claim is about every sequence of random numbers and every run length, so it needs an invariant proved by induction over the history.", "anchors": ["cdnest/dnest.c:kill_lagging_particles"]}
{"id": "C15", "title": "Step-width limits enclose what was visited and are nested", "statement": "For each parameter, the recorded limits of every level contain all parameter values of particles recorded at that level, and after merging, limits of a higher level lie inside those of a lower level.", "quantifier": "all histories of recorded positions, all task numbers, levels, parameters", "why_tests_cant": "A test runs a handful of seeds; the claim is about every sequence of random numbers and every run length, so it needs an invariant proved by induction over the history.", "anchors": ["cdnest/dnest.c:update_level_assignment", "cdnest/dnest.c:dnest_run"]}
{"id": "C16", "title": "A run stops after exactly the requested number of saves", "statement": "A fresh run with a positive maximum number of saves stops when exactly that number of samples has been saved, and not before; no save is skipped or made twice per save interval.", "quantifier": "all save intervals, thread steps and requested numbers of saves", "why_tests_cant": "A test runs a handful of seeds; the claim is about every sequence of random numbers and every run length, so it needs an invariant proved by induction over the history.", "anchors": ["cdnest/dnest.c:dnest_run"]}
{"id": "C17", "title": "A restart file restores the saved sampler state", "statement": "Reading a restart file written by a run with the same options gives back the state that was saved: level table, particles, level assignments, likelihoods, limits, save count and step count.", "quantifier": "all sampler states, all task and particle numbers, all crash points between two restart saves", "why_tests_cant": "The claim is about every state in which a save may happen, including runs with very long step counts that no test reaches.", "anchors": ["cdnest/dnest.c:dnest_save_restart", "cdnest/dnest.c:dnest_restart"]}
{"id": "C18", "title": "Restart keeps the sampler invariants", "statement": "After a restart, also with a smaller maximal number of levels than in the saved run, each particle's level exists and each particle's likelihood is at least the threshold of its level.", "quantifier": "all restart files, all new level limits", "why_tests_cant": "A test runs a handful of seeds; the claim is about every sequence of random numbers and every run length, so it needs an invariant proved by induction over the history.", "anchors": ["cdnest/dnest.c:dnest_restart"]}
{"id": "C19", "title": "Log-sum-exp is exact and safe", "statement": "The log-sum-exp used for evidence and weights equals log of the sum of exponentials for every finite list, is invariant under shifts, and never exponentiates a positive number.", "quantifier": "all finite non-empty lists of reals", "why_tests_cant": "The claim ranges over a continuum of real parameter values and data sizes; a test evaluates finitely many points and cannot distinguish an exact identity from an agreement at those points.", "anchors": ["cdnest/dnestpostprocess.c:logsumexp"]}
{"id": "C20", "title": "Posterior weights form a probability distribution", "statement": "Posterior weights computed from any sample list are non-negative and sum to one; they do not change when all log-likelihoods are shifted by a constant, while the evidence shifts by that constant.", "quantifier": "all sample lists and likelihood values", "why_tests_cant": "The claim ranges over a continuum of real parameter values and data sizes; a test evaluates finitely many points and cannot distinguish an exact identity from an agreement at those points.", "anchors": ["cdnest/dnestpostprocess.c:postprocess"]}
{"id": "C21", "title": "Effective sample size lies between 1 and the number of samples", "statement": "The number of posterior samples computed as exponential of the weight entropy is at least 1 and at most the number of saved samples; the reported information is non-negative when the prior-mass estimates are a subdivision of the prior.", "quantifier": "all weight vectors", "why_tests_cant": "The claim ranges over a continuum of real parameter values and data sizes; a test evaluates finitely many points and cannot distinguish an exact identity from an agreement at those points.", "anchors": ["cdnest/dnestpostprocess.c:postprocess"]}
{"id": "C22", "title": "Posterior samples are actual saved samples", "statement": "Every line of the posterior sample output is one of the saved samples of the run and its weight is positive.", "quantifier": "all sample files, all random numbers", "why_tests_cant": "A test runs a handful of seeds; the claim is about every sequence of random numbers and every run length, so it needs an invariant proved by induction over the history.", "anchors": ["cdnest/dnestpostprocess.c:postprocess"]}
{"id": "C23", "title": "Every sample gets a finite prior mass", "statement": "Post-processing assigns every saved sample a finite log prior mass that lies between the masses of its level and the next one.", "quantifier": "all sample files and level files", "why_tests_cant": "Failure depends on the number of samples falling in one level, which is random; a test seldom meets the degenerate count.", "anchors": ["cdnest/dnestpostprocess.c:postprocess"]}
{"id": "C24", "title": "Fast continuum solver solves the right system", "statement": "For sorted distinct times, positive damping rate and positive noise, the O(n) solver returns z with C z = y, where C is the damped-random-walk covariance plus noise; the pivots are positive and the log-determinant returned is log det C.", "quantifier": "all n, all time grids, amplitudes, noise levels and right-hand sides", "why_tests_cant": "The claim ranges over a continuum of real parameter values and data sizes; a test evaluates finitely many points and cannot distinguish an exact identity from an agreement at those points.", "anchors": ["src/mathfun.c:compute_semiseparable_drw", "src/mathfun.c:multiply_matvec_semiseparable_drw"]}
{"id": "C25", "title": "Block inversion equals the inverse", "statement": "Inverting a symmetric matrix by 2x2 blocks gives the inverse and log-determinant of the full matrix whenever the leading block and the Schur complement are invertible; iterating it over any number of bands gives the same.", "quantifier": "all block sizes, numbers of bands and matrices", "why_tests_cant": "The claim ranges over a continuum of real parameter values and data sizes; a test evaluates finitely many points and cannot distinguish an exact identity from an agreement at those points.", "anchors": ["src/mathfun.c:inverse_symat_partition", "src/mathfun.c:inverse_symat_partition_iter", "src/mathfun.c:inverse_semiseparable_iter"]}
{"id": "C26", "title": "All likelihood implementations agree", "statement": "The direct and the fast implementation of the continuum likelihood return the same number for every data set and parameter vector, and so do the variants of the line likelihood.", "quantifier": "all data sets, all parameters", "why_tests_cant": "The claim ranges over a continuum of real parameter values and data sizes; a test evaluates finitely many points and cannot distinguish an exact identity from an agreement at those points.", "anchors": ["src/mc_con.c:prob_con_variability", "src/mc_con.c:prob_con_variability_semiseparable", "src/mc_line.c:prob_line_variability", "src/mc_line.c:prob_line_variability4"]}
{"id": "C27", "title": "The likelihood is the marginal Gaussian likelihood", "statement": "The returned log-likelihood is, up to an additive constant independent of the parameters, that of Gaussian data with the model covariance after the mean (trend) coefficients are optimised/marginalised: the quadratic form is minimal over all trend coefficients.", "quantifier": "all data, trends and covariances", "why_tests_cant": "The claim ranges over a continuum of real parameter values and data sizes; a test evaluates finitely many points and cannot distinguish an exact identity from an agreement at those points.", "anchors": ["src/mc_con.c:prob_con_variability", "src/mc_line.c:prob_line_variability4"]}
{"id": "C28", "title": "The likelihood does not depend on a common flux offset", "statement": "Adding an arbitrary constant to a light curve changes neither the quadratic form nor the likelihood (the trend is fitted), so the lag estimate does not depend on the zero point of any light curve.", "quantifier": "all light curves, all offsets", "why_tests_cant": "The claim ranges over a continuum of real parameter values and data sizes; a test evaluates finitely many points and cannot distinguish an exact identity from an agreement at those points.", "anchors": ["src/mc_line.c:prob_line_variability4"]}
{"id": "C29", "title": "The damped-random-walk covariance is a covariance", "statement": "For every finite set of times and every positive timescale the matrix exp(-|ti-tj|/tau) is symmetric positive semi-definite; with positive noise it is positive definite.", "quantifier": "all finite time sets, all tau", "why_tests_cant": "The claim ranges over a continuum of real parameter values and data sizes; a test evaluates finitely many points and cannot distinguish an exact identity from an agreement at those points.", "anchors": ["src/mc_con.c:set_covar_Pmat_data"]}
{"id": "C30", "title": "The joint continuum/line covariance is a covariance", "statement": "For every set of continuum and line times and each of the transfer functions the joint covariance matrix built by the code is symmetric positive semi-definite, positive definite with positive noise.", "quantifier": "all time sets, numbers of lines, components, positive widths and damping timescales", "why_tests_cant": "The claim ranges over a continuum of real parameter values and data sizes; a test evaluates finitely many points and cannot distinguish an exact identity from an agreement at those points.", "anchors": ["src/mc_line.c:set_covar_Pmat_data_line", "src/mc_line.c:set_covar_Pmat_data_line_array"]}
{"id": "C31", "title": "Top-hat covariances are the convolution integrals", "statement": "The closed-form continuum-line and line-line covariances for top-hat transfer functions equal the integral of the damped-random-walk covariance against the transfer functions, in every branch.", "quantifier": "all times, lags, widths > 0, damping timescales > 0", "why_tests_cant": "The claim ranges over a continuum of real parameter values and data sizes; a test evaluates finitely many points and cannot distinguish an exact identity from an agreement at those points.", "anchors": ["src/mc_line.c:Slc_tophat", "src/mc_line.c:Sll_tophat", "src/mc_line.c:Sll2_tophat"]}
{"id": "C32", "title": "Gaussian covariances are the convolution integrals", "statement": "Same for Gaussian transfer functions (with the exact complementary error function).", "quantifier": "all times, lags, widths > 0, damping timescales > 0", "why_tests_cant": "The claim ranges over a continuum of real parameter values and data sizes; a test evaluates finitely many points and cannot distinguish an exact identity from an agreement at those points.", "anchors": ["src/mc_line.c:Slc_gauss", "src/mc_line.c:Sll_gauss"]}
{"id": "C33", "title": "Exponential covariances are the convolution integrals", "statement": "Same for one-sided exponential transfer functions, away from the near-degenerate branch and exactly at equal timescales.", "quantifier": "all times, lags, timescales > 0", "why_tests_cant": "The claim ranges over a continuum of real parameter values and data sizes; a test evaluates finitely many points and cannot distinguish an exact identity from an agreement at those points.", "anchors": ["src/mc_line.c:Slc_exp", "src/mc_line.c:Sll_exp"]}
{"id": "C34", "title": "Gamma covariances are the convolution integrals", "statement": "Same for gamma (k=2) transfer functions.", "quantifier": "all times, lags, timescales > 0", "why_tests_cant": "The claim ranges over a continuum of real parameter values and data sizes; a test evaluates finitely many points and cannot distinguish an exact identity from an agreement at those points.", "anchors": ["src/mc_line.c:Slc_gamma", "src/mc_line.c:Sll_gamma"]}
{"id": "C35", "title": "Covariance between mixed transfer functions is the convolution integral", "statement": "For the mixture model the covariance of each pair of component types equals the double convolution integral and swapping the two lines transposes it.", "quantifier": "all pairs of types, all times, lags, widths", "why_tests_cant": "The claim ranges over a continuum of real parameter values and data sizes; a test evaluates finitely many points and cannot distinguish an exact identity from an agreement at those points.", "anchors": ["src/mc_mmap.c:Sll_exp_gam", "src/mc_mmap.c:Sll_exp_tophat", "src/mc_mmap.c:Sll_gam_tophat"]}
{"id": "C36", "title": "Line covariance functions are symmetric", "statement": "Swapping the two times of a line auto-covariance, or swapping the two lines together with their times in a cross-covariance, does not change the value; therefore filling only one triangle and mirroring it is right.", "quantifier": "all times, numbers of components and parameter values", "why_tests_cant": "The claim ranges over a continuum of real parameter values and data sizes; a test evaluates finitely many points and cannot distinguish an exact identity from an agreement at those points.", "anchors": ["src/mc_line.c:Sll_gauss", "src/mc_line.c:Sll2_gauss", "src/mc_line.c:Sll_tophat", "src/mc_line.c:Sll_array_gauss"]}
{"id": "C37", "title": "Whole covariance matrix is filled exactly once", "statement": "The loops that assemble the covariance matrix write every entry of the n x n matrix with the value of the covariance function of the two data points (and noise on the diagonal), for any numbers of continuum and line points.", "quantifier": "all numbers of lines and points", "why_tests_cant": "The claim ranges over a continuum of real parameter values and data sizes; a test evaluates finitely many points and cannot distinguish an exact identity from an agreement at those points.", "anchors": ["src/mc_line.c:set_covar_Pmat_data_line"]}
{"id": "C38", "title": "Reconstruction is the best linear unbiased prediction", "statement": "The reconstructed mean equals conditional mean with estimated trend: it reproduces noise-free data exactly at observed times, it is linear in the data and exact for pure trends, and the reported variance is non-negative.", "quantifier": "all data, parameters, prediction times", "why_tests_cant": "The claim ranges over a continuum of real parameter values and data sizes; a test evaluates finitely many points and cannot distinguish an exact identity from an agreement at those points.", "anchors": ["src/mc_con.c:recostruct_con_from_varmodel", "src/mc_line.c:reconstruct_line_from_varmodel3"]}
{"id": "C39", "title": "Parameter layout is collision free", "statement": "Every (data set, continuum parameter) and every (data set, line, component, parameter) has its own index, all indices are below the number of parameters and every index is used.", "quantifier": "all numbers of data sets, lines per data set and components", "why_tests_cant": "The claim ranges over a continuum of real parameter values and data sizes; a test evaluates finitely many points and cannot distinguish an exact identity from an agreement at those points.", "anchors": ["src/dnest_line.c:set_idx_line_pm", "src/init.c:idx_con_pm", "src/dnest_line.c:get_num_params"]}
{"id": "C40", "title": "Unknown or repeated options are rejected", "statement": "A parameter file is accepted only if every non-comment tag is a known one and no tag occurs twice; accepted files give every listed tag the value on its line and all other options the documented default, independent of the order of lines.", "quantifier": "all texts", "why_tests_cant": "The claim ranges over every possible text/configuration a user can supply; a test suite only enumerates a few files.", "anchors": ["src/read.c:read_parset", "cdnest/dnest.c:options_load"]}
{"id": "C41", "title": "An accepted configuration is consistent", "statement": "Whenever the configuration check succeeds, the settings used by the run satisfy the documented relations: lower <= upper limits for lag and numbers of components, known model type, number of components needed by the model.", "quantifier": "all parameter settings", "why_tests_cant": "The claim ranges over every possible text/configuration a user can supply; a test suite only enumerates a few files.", "anchors": ["src/read.c:read_parset"]}
{"id": "C42", "title": "Data file header and body are read consistently", "statement": "For every data file in the documented format each light curve gets exactly the points listed for it, in order.", "quantifier": "all data files, numbers of data sets and light curves, also with empty light curves", "why_tests_cant": "The claim ranges over every possible text/configuration a user can supply; a test suite only enumerates a few files.", "anchors": ["src/read.c:read_data"]}
{"id": "C43", "title": "Light-curve normalisation is invertible and positive", "statement": "Every light curve accepted by the normalisation is divided by a positive factor that is later multiplied back, so output is in input units; relative errors are unchanged.", "quantifier": "all light curves", "why_tests_cant": "The claim ranges over a continuum of real parameter values and data sizes; a test evaluates finitely many points and cannot distinguish an exact identity from an agreement at those points.", "anchors": ["src/read.c:scale_con_line"]}
{"id": "C44", "title": "Work split over MPI tasks is a partition", "statement": "The posterior samples used for reconstruction are split over tasks such that each sample is handled by exactly one task, task loads differ by at most one.", "quantifier": "all numbers of samples and tasks", "why_tests_cant": "The claim ranges over a continuum of real parameter values and data sizes; a test evaluates finitely many points and cannot distinguish an exact identity from an agreement at those points.", "anchors": ["src/mc_line.c:output_reconstruction_parallel"]}
{"id": "C45", "title": "Lag prior bins", "statement": "The lag windows of the equal-division priors are adjacent, of equal width, and cover exactly the configured lag range; each component's lag stays in its own window.", "quantifier": "all lag limits and numbers of components", "why_tests_cant": "The claim ranges over a continuum of real parameter values and data sizes; a test evaluates finitely many points and cannot distinguish an exact identity from an agreement at those points.", "anchors": ["src/dnest_line.c:set_par_range_line", "src/dnest_line.c:perturb_line_prior1"]}
{"id": "C46", "title": "Component order is preserved", "statement": "With the ordered lag prior, components start in increasing lag order and stay in that order after any number of perturbations, inside the lag range.", "quantifier": "all initial draws, all perturbation sequences", "why_tests_cant": "A test runs a handful of seeds; the claim is about every sequence of random numbers and every run length, so it needs an invariant proved by induction over the history.", "anchors": ["src/dnest_line.c:from_prior_line", "src/dnest_line.c:perturb_line_prior0"]}
{"id": "C47", "title": "Positive-lag option does not break the prior", "statement": "With the positive-lag option each initial particle respects the prior ranges and the option's constraint lag - factor*width >= 0.", "quantifier": "all random draws, all options", "why_tests_cant": "A test runs a handful of seeds; the claim is about every sequence of random numbers and every run length, so it needs an invariant proved by induction over the history.", "anchors": ["src/dnest_line.c:from_prior_line", "src/dnest_line.c:check_positivity"]}
{"id": "C48", "title": "Model selection reports the best model", "statement": "After running all numbers of components, the number reported as best has the largest evidence and is the smallest such number.", "quantifier": "all evidence values and ranges of component numbers", "why_tests_cant": "The claim ranges over a continuum of real parameter values and data sizes; a test evaluates finitely many points and cannot distinguish an exact identity from an agreement at those points.", "anchors": ["src/mc_line.c:mc_line"]}
{"id": "C49", "title": "Seasonal-gap and ratio prior strings are parsed as documented", "statement": "A prior string listing lower:upper pairs for several lines or components assigns the i-th pair to the i-th item.", "quantifier": "all well-formed strings", "why_tests_cant": "The claim ranges over every possible text/configuration a user can supply; a test suite only enumerates a few files.", "anchors": ["src/read.c:get_seasonal_gap_allset", "src/mc_pmap.c:mc_pmap_init", "src/mc_line.c:mc_line_init"]}
{"id": "C50", "title": "Posterior summaries are correct", "statement": "The reported mean is the arithmetic mean of the posterior samples, the reported uncertainty the sample standard deviation (zero for a single sample), and reported variance is never negative.", "quantifier": "all posterior samples", "why_tests_cant": "The claim ranges over a continuum of real parameter values and data sizes; a test evaluates finitely many points and cannot distinguish an exact identity from an agreement at those points.", "anchors": ["src/mc_con.c:postprocess_con", "src/mc_line.c:postprocess_line"]}
{"id": "C51", "title": "Virtual-continuum model explores its damping timescale", "statement": "In the virtual-continuum mode a proposal that changes the damping timescale can be accepted.", "quantifier": "all proposals and random numbers", "why_tests_cant": "Acceptance is random; a test cannot tell 'never' from 'rarely'.", "anchors": ["src/dnest_vmap.c:perturb_vmap_prior0", "src/run.c:begin_run", "src/init.c:allocate_memory"]}
{"id": "C52", "title": "Library version check", "statement": "The library version check accepts exactly versions that are at least the required one (lexicographic order on major, minor, patch).", "quantifier": "all version numbers", "why_tests_cant": "The claim ranges over every possible text/configuration a user can supply; a test suite only enumerates a few files.", "anchors": ["cdnest/dnest.c:dnest_check_version"]}
{"id": "C53", "title": "Acceptance rule", "statement": "A proposal is accepted only if it satisfies the likelihood constraint of the particle's level, and under the constraint exactly when the uniform number is at most min(1, exp(log H)); rejected proposals leave particle and likelihood unchanged.", "quantifier": "all proposals, random numbers, particles", "why_tests_cant": "A test runs a handful of seeds; the claim is about every sequence of random numbers and every run length, so it needs an invariant proved by induction over the history.", "anchors": ["cdnest/dnest.c:update_particle"]}
{"id": "C54", "title": "Response-ratio reparametrisation", "statement": "Converting response ratios to amplitudes is a bijection, leaves all other parameters unchanged and multiplies component k's amplitude by that of component 0.", "quantifier": "all parameter vectors", "why_tests_cant": "The claim ranges over a continuum of real parameter values and data sizes; a test evaluates finitely many points and cannot distinguish an exact identity from an agreement at those points.", "anchors": ["src/mc_pmap.c:transform_response_ratio"]}
{"id": "C55", "title": "Elapsed-time display", "statement": "Splitting elapsed seconds in hours, minutes and seconds loses nothing and keeps minutes and seconds below 60.", "quantifier": "all non-negative durations", "why_tests_cant": "The claim ranges over a continuum of real parameter values and data sizes; a test evaluates finitely many points and cannot distinguish an exact identity from an agreement at those points.", "anchors": ["src/system.c:get_hms"]}
{"id": "C56", "title": "Parameter-name files load for any comment layout", "statement": "Loading prior ranges from a parameter-name file terminates for every file, ignoring comment and blank lines.", "quantifier": "all files", "why_tests_cant": "The claim ranges over every possible text/configuration a user can supply; a test suite only enumerates a few files.", "anchors": ["src/init.c:load_par_names"]}
{"id": "C57", "title": "What the level counters count", "statement": "One particle move adds exactly one try and, if accepted, one acceptance at the particle's level; one visit at every level from the particle's level up (except the top one) that the particle's likelihood reaches; and one exceedance at each of those whose next threshold is exceeded. No other counter changes.", "quantifier": "all likelihood functions, proposals, random numbers, level tables with non-decreasing thresholds", "why_tests_cant": "The claim fixes every counter of every level for every move; a test samples moves and would miss a wrong count at a boundary level.", "anchors": ["cdnest/dnest.c:update_particle"]}
{"id": "C58", "title": "Level moves follow the weighted Metropolis rule", "statement": "A level move proposes an existing level and the particle goes there exactly when the level's threshold lies below its likelihood and the uniform number is at most the minimum of one and the ratio of prior masses times the ratio of level weights; parameters, likelihood, counters and other particles are unchanged.", "quantifier": "all level tables, displacements, random numbers", "why_tests_cant": "The acceptance probability is a function of continuous quantities for every pair of levels; sampled tests cannot separate it from a slightly different rule.", "anchors": ["cdnest/dnest.c:update_level_assignment", "cdnest/dnest.c:log_push", "cdnest/dnest.c:mod_int"]}
{"id": "C59", "title": "All tasks agree on whether enough levels exist, and that is final", "statement": "In every state of a run all parallel tasks agree on whether there are enough likelihood levels; once there are enough, no further level is created and no likelihood is collected.", "quantifier": "all option values, all histories, all task numbers", "why_tests_cant": "The root task changes its own copy of the option when the last level is created and the other tasks do not; agreement has to hold at every point of every run.", "anchors": ["cdnest/dnest.c:enough_levels", "cdnest/dnest.c:do_bookkeeping", "cdnest/dnest.c:dnest_run"]}
{"id": "C60", "title": "The log-determinant read off the symmetric factorisation is right for covariance matrices", "statement": "For every positive definite matrix of any size, inverse_symat_lndet and inverse_symat_lndet_sign return the logarithm of its determinant and sign +1, reading only the upper triangle; for an indefinite matrix they need not.", "quantifier": "all matrix sizes, all positive definite matrices, all contents of the lower triangle", "why_tests_cant": "The functions add the logarithms of the diagonal of the factored array and ignore 2x2 pivots, which is right only because the pivoting rule never chooses one for a positive definite matrix; that is a statement about all matrices.", "anchors": ["src/mathfun.c:inverse_symat_lndet", "src/mathfun.c:inverse_symat_lndet_sign"]}
{"id": "C61", "title": "A component's parameters are the area and mean lag of the response", "statement": "For every transfer-function type the response profile that the covariance functions integrate is non-negative, has area equal to the amplitude parameter and mean lag equal to the centre parameter; a line's transfer function has area the sum of amplitudes and first moment the amplitude-weighted sum of centres.", "quantifier": "all types, numbers of components, centres, positive widths, amplitudes of either sign", "why_tests_cant": "It is a statement about integrals for all real parameters; users compare lags between types relying on it, and a shifted onset in one type would only show as a small bias.", "anchors": ["src/mc_line.c:Slc_gamma", "src/mc_line.c:Slc_exp", "src/mc_line.c:Slc_gauss", "src/mc_line.c:Slc_tophat"]}
{"id": "C62", "title": "Line-model parameters stay in their ranges and fixed ones stay fixed", "statement": "From a draw of the prior and after any number of moves, every free parameter of the continuum-line model is inside its prior range and every fixed one has its fixed value; the moves never stop the program.", "quantifier": "all configurations (numbers of data sets, lines, components, prior types), all random numbers, all sequences of moves", "why_tests_cant": "The ordered prior folds a lag between its neighbours and the program exits if such a range is inverted; that this never happens is an invariant over unboundedly many moves.", "anchors": ["src/dnest_line.c:from_prior_line", "src/dnest_line.c:perturb_line_prior0", "src/dnest_line.c:perturb_line_prior1", "src/dnest_line.c:set_par_range_line"]}
{"id": "C63", "title": "Shared lags and widths are really shared", "statement": "With FlagUniformTranFuns = 2 every line of every data set has, in every particle, the lags and widths of the same line of the first data set.", "quantifier": "all numbers of data sets, lines and components, all sequences of moves", "why_tests_cant": "The copies are fixed to a placeholder value and overwritten after each move; sharing is an invariant of all histories, and depends on the line numbers of the data sets.", "anchors": ["src/dnest_line.c:set_center_width", "src/dnest_line.c:set_idx_line_pm", "src/dnest_line.c:dnest_line"]}
{"id": "C64", "title": "The seasonal-gap penalty is charged for the right data set", "statement": "With the seasonal-gap option, moving a component's lag or width is charged a penalty exactly if the lag modulo a year falls inside the gap of the data set the component belongs to and the component is narrower than the gap; the penalty is between -100 and 0; other moves are not charged.", "quantifier": "all lags and widths, all gaps, all numbers of data sets, lines and components", "why_tests_cant": "The data set is found by index arithmetic over all layouts and the lag is reduced modulo a year for all real values.", "anchors": ["src/dnest_line.c:check_gap", "src/dnest_line.c:get_idx_set"]}
{"id": "C65", "title": "Reconstruction independent of the number of tasks", "statement": "The reconstructed light curves written to file are the mean over all posterior samples, with the larger of the standard deviation over samples and the largest single error as uncertainty, for every number of MPI tasks.", "quantifier": "all posterior samples, all per-sample reconstructions, all numbers of tasks", "why_tests_cant": "the number of tasks and the remainder of the division of samples over tasks vary without bound; a test covers a few pairs", "anchors": ["src/mc_line.c:output_reconstruction_parallel"]}
{"id": "C66", "title": "Restart files of different models are separate", "statement": "Runs with different numbers of components save their sampler state to different files, and a restart reads the state saved for the same number of components.", "quantifier": "all directories, all numbers of components, all modes", "why_tests_cant": "needs distinctness of names for all pairs of numbers", "anchors": ["src/mc_line.c:mc_line", "src/mc_pmap.c:mc_pmap", "src/mc_vmap.c:mc_vmap"]}
{"id": "C67", "title": "Reconstruction nodes cover the data", "statement": "The times at which light curves are reconstructed are equally spaced and strictly increasing, extend beyond the first and last time of every light curve of the set (with the requested extension), and are at most as many as requested.", "quantifier": "all data spans, extensions and requested numbers of points", "why_tests_cant": "ranges over real-valued spans and all numbers of points, including 0 and 1", "anchors": ["src/mc_line.c:output_reconstruction_parallel", "src/read.c:read_parset"]}
{"id": "C68", "title": "Sampler options of the parameter file reach the sampler", "statement": "The sampler runs with the option values given in the parameter file: what the main program writes into the sampler's option file and the sampler reads back equals the user's value.", "quantifier": "all values of the nine sampler options", "why_tests_cant": "The claim ranges over all real option values; a test with round values passes although other values are changed by the printed precision.", "anchors": ["src/init.c:write_options_line", "cdnest/dnest.c:options_load"]}
{"id": "C69", "title": "Accepted step counts fit the sampler's buffers", "statement": "Whenever the sampler accepts its options, every task performs at least one step between communications and the interval for new levels is at least the number of steps of all tasks between two communications.", "quantifier": "all numbers of parameters, tasks and particles and all real factors", "why_tests_cant": "The derived counts come from truncation of real products and 32-bit arithmetic; only unusual combinations violate the relation.", "anchors": ["cdnest/dnest.c:options_load", "cdnest/dnest.c:setup"]}
{"id": "C70", "title": "Reading and scaling stay within the arrays", "statement": "For every data file that is accepted, reading the light curves, scaling them and printing their end points neither reads nor writes outside the arrays allocated for them.", "quantifier": "all numbers of data sets, lines and points and all values", "why_tests_cant": "A read one element outside an array usually goes unnoticed at run time, and the empty continuum of velocity-map runs is only one of the shapes that would have to be tried.", "anchors": ["src/read.c:read_data", "src/read.c:scale_con_line", "src/read.c:check_time_sorted"]}
{"id": "C71", "title": "Derived time span, lag limit, cadence and default width range", "statement": "The derived time span is the largest span of one light curve, the default upper lag limit is half of the longest span, the cadence used is the smallest mean spacing, and the default width range of the transfer function is not empty and starts above zero.", "quantifier": "all accepted data sets and all limits given by the user", "why_tests_cant": "The quantities are extrema over all light curves; tests sample data sets, and wrong results appear only when the extremum sits in an unusual place or is negative or zero.", "anchors": ["src/read.c:read_data", "src/init.c:init"]}
{"id": "C72", "title": "Printed reconstruction times stay distinct", "statement": "The number of digits chosen for the output of reconstructed light curves is large enough for consecutive times of each reconstructed light curve to be printed as different numbers.", "quantifier": "all data sets, spans and numbers of reconstruction points", "why_tests_cant": "The digits are chosen from the longest span over all data sets, so collisions depend on the relation between data sets.", "anchors": ["src/read.c:read_data", "src/mc_line.c:output_reconstruction_parallel"]}
{"id": "C73", "title": "Seasonal gap is the mean of the longest intervals", "statement": "With no gap given, the seasonal gap of a data set is the mean of its longest intervals between successive continuum points, one interval for each observing year, and its computation uses only intervals that exist.", "quantifier": "all sorted times and numbers of years", "why_tests_cant": "The number of years and the ordering of intervals vary with the data; short data over long spans are rarely tried.", "anchors": ["src/read.c:get_seasonal_gap", "src/read.c:get_seasonal_gap_allset"]}
{"id": "C74", "title": "Virtual-continuum moves keep parameters in their priors", "statement": "In the virtual-continuum mode every particle starts with, and keeps after every move, free parameters inside their prior ranges, fixed parameters at their fixed values and ordered lags in increasing order, and no move stops the program.", "quantifier": "all configurations, random numbers and sequences of moves", "why_tests_cant": "A stop of the program or a value out of range needs a particular order of random lags and of moves; runs are random.", "anchors": ["src/dnest_vmap.c:from_prior_vmap", "src/dnest_vmap.c:perturb_vmap_prior0", "src/dnest_vmap.c:perturb_vmap_prior1", "src/dnest_vmap.c:set_par_range_vmap"]}
{"id": "C75", "title": "Continuum-only data sets in a line run", "statement": "In a run with emission lines a data set that contains only a continuum contributes to the likelihood exactly what it contributes in a continuum-only run with the same parameters.", "quantifier": "all data sets, parameters and trend orders", "why_tests_cant": "The shipped examples always have at least one line in every data set; agreement for all data and parameters is an identity between two algorithms.", "anchors": ["src/mathfun.c: inverse_semiseparable_iter", "src/mc_line.c: prob_line_variability4", "src/mc_con.c: prob_con_variability_semiseparable"]}
{"id": "C76", "title": "Virtual-continuum likelihood is the marginal likelihood of the lines", "statement": "In the mode without a continuum, the log-likelihood used for sampling is, for every data set, the logarithm of the normal density of all line points (signals driven by one unobserved continuum through the transfer functions, amplitude exp(pm[1]) without a factor of the timescale, plus measurement and systematic noise) integrated over the polynomial trend of every line, up to a constant; the direct implementation gives the same number; adding a trend to a line changes neither.", "quantifier": "all numbers of data sets, lines, points and components, all types of transfer function, all parameters for which the covariance is positive definite, all data", "why_tests_cant": "An integral over all trend coefficients and arbitrary numbers of lines and points cannot be sampled; the case that fails (a data set with a single line, where the matrix is used in place of its inverse) returns a plausible number.", "anchors": ["src/mc_vmap.c:prob_line_variability4_vmap", "src/mc_vmap.c:prob_line_variability3_vmap", "src/mc_vmap.c:set_covar_Pmat_data_line_array_vmap", "src/mathfun.c:inverse_symat_partition_iter"]}
{"id": "C77", "title": "Without a continuum only differences of lags matter", "statement": "In the mode without a continuum, shifting the lags of all components of all lines of a data set by the same amount leaves the likelihood exactly as it was, so that fixing the first lag to zero loses no model.", "quantifier": "all shifts (one per data set), all types of transfer function and pairs of types, all parameters, including timescales in the band around the damping timescale, all data, whatever the outcome (value, rejection, undefined behaviour)", "why_tests_cant": "The sixteen pair formulas have case distinctions on the times and timescales; invariance for every parameter value is a statement about all of them at once.", "anchors": ["src/mc_vmap.c:prob_line_variability4_vmap", "src/mc_line.c:Sll2_gauss", "src/mc_line.c:Sll2_gamma", "src/mc_line.c:Sll2_exp", "src/mc_line.c:Sll2_tophat", "src/dnest_vmap.c:from_prior_vmap"]}
{"id": "C78", "title": "Moves leave the prior invariant", "statement": "For every move the sampler can propose for the continuum model and for the emission-line model (any lag prior, with or without the positive-lag and seasonal-gap options, with own or shared transfer functions), the opposite random number proposes the way back, and the acceptance probabilities min(1,exp(logH)) of the two moves balance against one prior density: Gaussian in the variability parameters about the values found in the continuum run, flat in the other parameters, times the documented penalties. So without likelihood the chain samples the documented prior.", "quantifier": "all configurations, particles strictly inside their prior, chosen parameters, random numbers and sampler states (level, step limits)", "why_tests_cant": "A wrong ratio biases the posterior without any visible failure; balance must hold for every pair of states and every option combination", "anchors": ["src/dnest_line.c:perturb_line_prior0", "src/dnest_line.c:perturb_line_prior1", "src/dnest_line.c:check_gap", "src/dnest_line.c:check_positivity", "src/dnest_con.c:perturb_con", "cdnest/dnest.c:dnest_wrap"]}
{"id": "C79", "title": "Work arrays are large enough and their parts never overlap", "statement": "The work arrays allocated once at start-up from the largest numbers of points over the data sets suffice for every later computation: each likelihood evaluation (continuum, continuum with lines, virtual continuum), each pass of the block matrix inversion, each reconstruction and each decomposition only touches elements inside its arrays, and the consecutive parts it cuts out of the shared workspace never meet.", "quantifier": "all numbers of data sets, of lines per data set, of points per light curve, all trend orders and all limits on the number of reconstruction times", "why_tests_cant": "A heap overrun by a few bytes usually goes unnoticed, and whether it happens depends on the combination of sizes; the sizing formula has to be compared with every layout for all sizes.", "anchors": ["src/init.c:allocate_memory", "src/read.c:read_data", "src/mc_con.c:prob_con_variability_semiseparable", "src/mc_con.c:recostruct_con_from_varmodel_semiseparable", "src/mc_line.c:prob_line_variability4", "src/mc_line.c:reconstruct_line_from_varmodel3", "src/line_decomp.c:decompose_single_component", "src/mc_vmap.c:prob_line_variability4_vmap", "src/mc_vmap.c:reconstruct_line_from_varmodel_vmap", "src/mathfun.c:inverse_semiseparable_iter"]}
{"id": "C80", "title": "Decomposition of a line into components adds up to the reconstructed line", "statement": "In the output of the decomposition of lines (written for models with several components), for each posterior sample the light curves returned for the single components of a line add up, at every output time, to the line reconstructed from the same sample (without its trend when responses may be negative); the continuum and trend coefficients returned with each component are those of the reconstruction; each component is the best linear prediction of the response of the line through that transfer function alone from all the data, and its reported error is the root of the mean squared error of that prediction, a number and not NaN.", "quantifier": "all data sets with at least one line, all output times, all numbers and types of components, all parameter values, all previous contents of the work arrays", "why_tests_cant": "The components are never printed together with their exact sum, and the deviations occur only for particular combinations of types and timescales (a narrow band of widths, mixtures whose types differ from TypeTF) over a continuum of parameters and times.", "anchors": ["src/line_decomp.c:decompose_single_component", "src/line_decomp.c:set_covar_Umat_line_single", "src/line_decomp.c:set_covar_Amat_line_single", "src/line_decomp.c:Slc_single_gamma", "src/line_decomp_mmap.c:set_covar_Amat_line_single_mmap", "src/line_decomp_mmap.c:Sll_single_mmap", "src/mc_line.c:reconstruct_line_from_varmodel3"]}
{"id": "C81", "title": "The array covariance functions used while sampling agree with the point-by-point ones", "statement": "While sampling, the covariance matrix of the data is filled by separate array functions (one per shape of transfer function, one per pair of shapes for mixtures, with and without negative responses) through scratch arrays that are reused between calls. For every choice of shapes, the matrix that results is entry for entry the matrix given by the point-by-point covariance functions used for reconstruction and documented as the model; it does not depend on what the scratch arrays held before; and no element outside the allocated scratch arrays is read or written.", "quantifier": "all collections of data sets and light-curve lengths, all times, all parameter values, all numbers and types of components, all previous contents of the scratch arrays, the ordinary, the mixed-type and the virtual-continuum mode", "why_tests_cant": "There are 20 array formulas against 14 point formulas, with branches chosen by the parameters; agreement at sampled parameters says nothing about other branches, and stale scratch contents or an overrun appear only for particular sequences of light-curve lengths.", "anchors": ["src/mc_line.c:set_covar_Pmat_data_line_array", "src/mc_line.c:Slc_array_gauss", "src/mc_line.c:Sll_array_tophat", "src/mc_line.c:Sll2_array_gamma", "src/mc_mmap.c:set_covar_Pmat_data_line_array_mmap", "src/mc_mmap.c:Slc_array_mmap", "src/mc_mmap.c:Sll_array_mmap", "src/mc_mmap.c:Sll2_array_mmap", "src/mc_mmap.c:Sll_array_exp_gam", "src/mc_vmap.c:set_covar_Pmat_data_line_array_vmap"]}
{"id": "C82", "title": "Photometric mode keeps all parameters inside the priors the user gave", "statement": "In photometric mode (TypeModel 1) the amplitude of the first component, the response ratios, the lags and the widths of every line stay inside their documented ranges: StrRatioPrior (default 0.001 to 1), the pair of StrLagPrior for each component, and the width limits (StrWidthPrior or WidthLimitLow/Upp), from the initial draw on and after any number of moves, and the run never stops by itself.", "quantifier": "all accepted settings of the priors, all numbers of components, data sets and lines, all draws and sequences of moves", "why_tests_cant": "The ranges are assembled from three text options, defaults and hard-coded corrections; a wrong entry shows only for particular settings and after long chains of random moves.", "anchors": ["src/mc_pmap.c:mc_pmap_init", "src/dnest_pmap.c:set_par_range_pmap", "src/dnest_pmap.c:from_prior_pmap", "src/dnest_pmap.c:perturb_pmap", "src/init.c:init"]}
{"id": "C83", "title": "The photometric likelihood is that of the documented two-component transfer function", "statement": "In photometric mode the likelihood that is sampled is, up to the additive constant of the data, the marginal Gaussian likelihood of the light curves when the line responds with the transfer function f1 psi1 + sum over k of f1 R_k psi_k, where f1 is the amplitude of the first component and R_k the ratio of component k; it does not depend on the contents of the buffer used for the conversion.", "quantifier": "all data sets, parameter values, numbers of components, all previous contents of the buffer", "why_tests_cant": "The conversion is made in a shared buffer, while the systematic errors and the continuum parameters are read from the unconverted vector; only for particular parameters would a mix-up show, and the likelihood has no reference value.", "anchors": ["src/mc_pmap.c:prob_line_variability4_pmap", "src/mc_pmap.c:transform_response_ratio", "src/mc_line.c:prob_line_variability4"]}
{"id": "C84", "title": "Virtual-continuum reconstruction is the best linear unbiased prediction", "statement": "Without a driving light curve (TypeModel 2), for every posterior sample the reconstructed lines and the reconstructed virtual continuum are the best linear unbiased predictions from the line data under the model with that sample's parameters: the lines with their own polynomial trends, the virtual continuum with none. The trend coefficients reported are zeros for the virtual continuum followed by the generalised least-squares ones of the lines, the reported error of a line is the standard error of its prediction, and no error is NaN. Data sets with a single line are included.", "quantifier": "all data sets with any number of lines and points, all parameters, transfer functions, reconstruction times, and all previous contents of the work arrays", "why_tests_cant": "Optimality is a statement about all linear predictors; the work arrays are shared between the data sets and overwritten piecewise, so a slip in an offset shows only for particular combinations of sizes.", "anchors": ["src/mc_vmap.c:reconstruct_line_from_varmodel_vmap", "src/mc_vmap.c:set_covar_Pmat_data_line_vmap", "src/mc_vmap.c:set_covar_Umat_line_vmap", "src/mc_vmap.c:set_covar_Amat_line_vmap"]}
{"id": "C85", "title": "The nodes of a virtual-continuum reconstruction cover the data", "statement": "In the virtual-continuum mode the virtual light curve and all lines of a data set are reconstructed on the same equally spaced, increasing times, beginning and ending 5 per cent of the span (after the extensions asked for) before the first and after the last observation of any line; their number is the one asked for or three per point of the longest line, whichever is less.", "quantifier": "all data sets, times, extensions, numbers of nodes", "why_tests_cant": "The window is a running minimum and maximum from fixed starting values; only data on one side of these reveal a wrong start.", "anchors": ["src/mc_vmap.c:output_reconstruction_vmap_parallel"]}
{"id": "C86", "title": "The virtual light curve is written in normalised units", "statement": "For each posterior sample the virtual light curve is brought to mean zero and standard deviation 0.1 over the nodes, so that units and zero point, which no data determine, do not matter; what is written is the mean over all samples and the standard deviation among them, whatever the number of MPI tasks.", "quantifier": "all light curves that are not constant, all samples, all numbers of tasks", "why_tests_cant": "The invariance is over all shifts and factors, and the independence over all numbers of tasks and divisions of the samples.", "anchors": ["src/mc_vmap.c:light_curve_normalize", "src/mc_vmap.c:output_reconstruction_vmap_parallel"]}
{"id": "C87", "title": "The command line is understood as written", "statement": "mica2 accepts its options before, between and behind the file names, each letter alone or several behind one dash, the file of -l attached or apart: exactly the options given are in force, the last -l names the prior file, the first name is the parameter file and the next two are option files of the sampler. A letter that is no option, -l without a file, or no parameter file stop the program before anything is done.", "quantifier": "all command lines: any number, order and grouping of options and names", "why_tests_cant": "The number of arrangements is unbounded, and the permuting of arguments by getopt changes the argument array while it is read.", "anchors": ["src/main.c:main"]}
{"id": "C88", "title": "The sampler is started with what the stage means", "statement": "The argument list each stage builds for the sampler is parsed by the sampler to the settings the stage means: snapshot file in the run's directory, resume from the same file exactly with -r, only post-processing exactly with -p, level-dependent limits, tag and postfix of the stage. If the directory name is too long for the sampler's arrays this is an overflow.", "quantifier": "all directory names, flags, numbers of components", "why_tests_cant": "Writer and reader of the argument list are different files with different array sizes; only names of particular lengths reveal it.", "anchors": ["src/mc_con.c:mc_con", "src/mc_line.c:mc_line", "src/mc_pmap.c:mc_pmap", "src/mc_vmap.c:mc_vmap", "cdnest/dnest.c:dnest"]}
{"id": "C89", "title": "What a run does under each combination of flags", "statement": "For every mode and every combination of flags it is determined which stages are sampled, which go on from a snapshot, for which a posterior sample is drawn, light curves are reconstructed or decomposed, parameter names or evidences are written, each once and in order: -p and -d sample nothing, -d also decomposes, -s stops after the posterior sample, -n only writes the names, -r goes on from the snapshot that the same stage of an earlier run wrote.", "quantifier": "all modes, all combinations of -p -d -r -n -s -e -v, all ranges of numbers of components, all directories", "why_tests_cant": "The number of combinations times the range of component numbers is unbounded, and a missing stage is silent because files of an earlier run are used.", "anchors": ["src/run.c:begin_run", "src/mc_con.c:mc_con", "src/mc_line.c:mc_line", "src/mc_pmap.c:mc_pmap", "src/mc_vmap.c:mc_vmap", "cdnest/dnest.c:dnest"]}
{"id": "C90", "title": "Stages do not overwrite each other's results", "statement": "Result files of different stages (continuum, lines with different numbers of components) and of different kinds never have the same name within a run, and the names under which the sampler writes are those under which the stage reads.", "quantifier": "all stages, numbers of components, directories", "why_tests_cant": "It is about all pairs of files and all component numbers.", "anchors": ["src/mc_con.c", "src/mc_line.c", "src/mc_pmap.c", "src/mc_vmap.c", "cdnest/dnest.c:options_load"]}
{"id": "C92", "title": "A resumed run uses the samples of both runs", "statement": "When a sampling run is resumed, its samples are appended to those of the interrupted run, exactly as many as were still to be made, and the posterior is drawn from all of them.", "quantifier": "all snapshots, contents of the sample file, continued executions, numbers of saves", "why_tests_cant": "It depends on when the run was interrupted relative to snapshots and flushes of the buffers, and on the whole continued execution.", "anchors": ["cdnest/dnest.c:dnest_run", "cdnest/dnest.c:initialize_output_file", "cdnest/dnest.c:dnest_restart", "cdnest/dnestpostprocess.c:postprocess"]}
{"id": "C93", "title": "Sampler invariants survive any number of interruptions", "statement": "However often a run is stopped and resumed from a snapshot, with whatever number of requested saves and whatever rows the sample file holds, thresholds stay ordered, every particle satisfies the constraint of its level, recorded likelihoods are current, counters are consistent, sizes are the configured ones, no round has undefined behaviour, and every snapshot can be resumed.", "quantifier": "all executions with any number of interruptions, all options accepted, all likelihood functions", "why_tests_cant": "Ranges over all histories of runs and interruptions.", "anchors": ["cdnest/dnest.c:dnest_restart", "cdnest/dnest.c:dnest_save_restart", "cdnest/dnest.c:dnest_run"]}
{"id": "C91", "title": "The file of parameter names says what the parameters are and can be loaded again", "statement": "The file written for every stage has one line per parameter; the line numbered i names the parameter which the model takes from position i; and loading the file with -l restores the flags of all parameters and their ranges to the six decimals printed, whatever was in force before. (A file written by the last run, with whatever flags, can be used, as the documentation says.)", "quantifier": "all configurations of data sets, lines, components and shared parameters; all tables of ranges, flags and values; the three formats", "why_tests_cant": "The positions depend on the whole configuration, and the round trip ranges over all real ranges.", "anchors": ["src/dnest_line.c:print_para_names_line", "src/dnest_pmap.c:print_para_names_pmap", "src/dnest_vmap.c:print_para_names_vmap", "src/init.c:load_par_names", "src/init.c:set_drw_par_range_load"]}
{"id": "C94", "title": "The likelihoods do not depend on the origin of time", "statement": "Adding one and the same number to all times of a data set (continuum and lines together; the number may differ from data set to data set) changes none of the likelihood functions: both continuum likelihoods, the four line likelihoods and the two likelihoods of the mode without continuum return exactly the same value for the same parameters, whatever the degree of the long-term trend. So JD, MJD and JD-2450000 give the same analysis (in exact arithmetic).", "quantifier": "all numbers of data sets, lines and points; all times, fluxes, errors; all parameters, numbers and mixtures of components; all numbers nq of trend coefficients; all shifts", "why_tests_cant": "the trend of degree nq-1 mixes with the shift (the columns of the design matrix change, only their span and the determinant of the change matter), so the invariance is a statement about all degrees and all data; single runs in floating point show only approximate agreement", "anchors": ["src/mc_con.c:prob_con_variability", "src/mc_con.c:prob_con_variability_semiseparable", "src/mc_line.c:prob_line_variability, prob_line_variability2, prob_line_variability3, prob_line_variability4", "src/mc_line.c:set_covar_Pmat_data_line, set_covar_Pmat_data_line_array", "src/mc_vmap.c:prob_line_variability3_vmap, prob_line_variability4_vmap", "src/mc_line.c, src/mc_mmap.c: Slc_*, Sll_*, Sll2_*"]}
{"id": "C95", "title": "Flux units do not matter when the data are normalised", "statement": "When the fluxes are normalised (the default), multiplying all fluxes and errors of a light curve by a positive number of its own (a change of units) leaves the normalised data on which everything is computed exactly as they were; only the recorded scale factors and normalization.txt change, by that number, and whatever is printed in the user's units comes out in the new units. The data are accepted or rejected alike. When normalisation is switched off (FlagUniformVarParams or FlagUniformTranFuns is 1), units do matter.", "quantifier": "all data sets, light curves and positive factors (one per light curve)", "why_tests_cant": "a statement about all data and all factors, about every file printed in user's units; a test fixes one factor", "anchors": ["src/read.c:scale_con_line", "src/read.c:read_data"]}
{"id": "C96", "title": "The numbering of the components of a transfer function does not matter", "statement": "Exchanging the parameters (amplitude, centre, width, and in the mixture mode the type) of components of a line, in every line in its own way, changes none of the line likelihoods, with and without continuum (in the photometric mode the first component is the continuum emission and has its own place): the likelihood depends on the set of components, not on their order, whatever the outcome (value, rejected point) is.", "quantifier": "all data, all parameters, all numbers of components, all permutations (one per data set and line), all mixtures of types", "why_tests_cant": "factorially many permutations over all parameters; the code loops over ordered pairs of components with one branch per pair of types", "anchors": ["src/mc_line.c: Slc_*, Sll_*, Sll2_*", "src/mc_mmap.c:Slc_mmap, Sll_mmap, Sll2_mmap", "src/mc_line.c:prob_line_variability, prob_line_variability2, prob_line_variability3, prob_line_variability4", "src/mc_vmap.c:prob_line_variability3_vmap, prob_line_variability4_vmap"]}
{"id": "C97", "title": "The order of lines and of data sets does not matter", "statement": "Giving the data sets in another order, and within each data set the lines in another order, together with the parameters that belong to them, changes none of the likelihoods (continuum, four line likelihoods, two of the mode without continuum). Condition for the lines: positive definite covariance, and no width so close to the damping timescale that the code replaces a formula by its limit.", "quantifier": "all data sets, lines, points; all parameters outside the bands; all permutations of data sets and (in each) of lines; any placement of the parameters in the vector; any number of trend coefficients", "why_tests_cant": "factorially many orders; the matrix is assembled from one triangle of blocks only and the fast likelihood inverts it block by block in the order of the lines, so invariance is a theorem about the block algorithm, not visible on single examples in floating point", "anchors": ["src/mc_con.c:prob_con_variability, prob_con_variability_semiseparable", "src/mc_line.c:prob_line_variability, prob_line_variability2, prob_line_variability3, prob_line_variability4, set_covar_Pmat_data_line_array", "src/mc_vmap.c:prob_line_variability3_vmap, prob_line_variability4_vmap"]}
{"id": "C98", "title": "The evidence does not depend on the order of the rows in the sample files", "statement": "The rows of the sample files are written in the order in which the processes finish. Post-processing the same rows in any other order gives the same evidence, information, effective sample size and number of posterior samples, and the file of weights contains the same rows, whatever random numbers are drawn, also when likelihoods (and tiebreakers) coincide.", "quantifier": "all level files with decreasing prior masses, all sample files, all permutations of their rows, all temperatures, all random numbers", "why_tests_cant": "all permutations and all tie patterns; the sorting function is called with a comparison that never returns a negative number", "anchors": ["cdnest/dnestpostprocess.c:postprocess", "cdnest/dnestpostprocess.c:cmp_sample", "cdnest/dnestpostprocess.c:logsumexp"]}
{"id": "C99", "title": "Every allocated block is released exactly once and never used afterwards", "statement": "In a run of the program, from reading the parameter file to the end, no memory block is used before it is allocated or after it is released, none is released twice, and at the end every block has been released and none has become unreachable on the way.", "quantifier": "all modes and combinations of flags; root and other tasks; all numbers of data sets, lines, components, parameters, particles, rounds of the sampler, levels and samples; all patterns of messages and snapshots during the sampling", "why_tests_cant": "a leak or a double release in a rarely used combination (decomposition, string priors, seasonal gaps, resumed runs, non-root tasks) is only visible when that combination is run under a memory checker; here every combination and all loop counts are covered", "anchors": ["src/run.c:begin_run, end_run", "src/init.c:allocate_memory, free_memory", "src/read.c:read_data", "src/mc_con.c:mc_con, mc_con_end", "src/mc_line.c:mc_line_init, mc_line_end, output_reconstruction_parallel", "src/mc_pmap.c", "src/mc_vmap.c", "src/mc_mmap.c", "src/line_decomp.c:output_decompose_line_parallel", "src/dnest_line.c:dnest_line", "cdnest/dnest.c:setup, finalise, dnest_run, dnest_save_restart", "cdnest/dnestpostprocess.c:postprocess"]}
{"id": "C100", "title": "Option files of the sampler mean what they say, to both programs that read them", "statement": "Each option of the sampler has the value on its own line of the option file, or its documented default; the files that the program writes itself carry the settings of the parameter file to the sampler; the number of particles the program reads from a user's file is the one the sampler uses; and an option file for one stage does not change the other stage.", "quantifier": "all option files whose lines fit the buffer, all settings, with and without option files of the user for each stage", "why_tests_cant": "the meaning of a file depends on every line of it, on comments, on repeated and missing tags and on two independent readers; tests see a handful of files", "anchors": ["src/init.c:write_options_con, write_options_line", "cdnest/dnest.c:options_load", "src/read.c:get_num_particles", "src/mc_con.c:mc_con_init", "src/mc_line.c:mc_line_init"]}
{"id": "C101", "title": "The files of the decomposition add up to the file of the reconstruction", "statement": "After a run with decomposition, the light curves of the components in pline.txt_..._comp0, comp1, ... have the same times as the reconstruction in pall.txt, the same continuum with an uncertainty that is not larger, and at each time the fluxes of a line in the files of the components add up to its flux in pall.txt (less the polynomial of trend.txt if responses may be negative); none of this depends on the number of tasks or on what the memory held before.", "quantifier": "all posterior samples, numbers of tasks, data sets, numbers of components, modes (with and without mixtures), trends, options for the reconstructed time range, and contents of the workspace", "why_tests_cant": "the sum rule connects several files written by two drivers from means over all samples on several tasks; it must hold at every node for every sample and every data set", "anchors": ["src/line_decomp.c:decompose_line, decompose_single_component", "src/mc_line.c:postprocess_line", "src/mc_mmap.c:postprocess_mmap"]}
{"id": "C102", "title": "Output light curves have the format of the input data", "statement": "The files of reconstructed light curves (pall.txt, pcon.txt) and of decomposed components (pline.txt_xx_compyy) can be given to the program as data: the reader accepts them and obtains the same data sets, lines and numbers of points, with times in order and every time and flux equal to the written one up to the printed digits.", "quantifier": "all lists of data sets, numbers of lines and points, real times and fluxes, and all precisions with which times are printed", "why_tests_cant": "it relates two directions of text conversion (printf %.pe and scanf %lf) and a reader that counts lines and numbers over files of any shape; a test compares a few files", "anchors": ["src/read.c:read_data, read_data_nmap", "src/mc_line.c:output_reconstruction", "src/mc_mmap.c:output_reconstruction", "src/mc_vmap.c:output_reconstruction", "src/mc_con.c", "src/line_decomp.c:decompose_line", "src/line_decomp_mmap.c", "docs/getting_started.rst"]}
{"id": "C103", "title": "What the sampler saves is what post-processing and the drivers read", "statement": "The text files of levels, saved particles, sample information and state, as the sampler writes them, are read by the post-processing row for row as the numbers written: log X and thresholds to 12 digits, log-likelihoods to 7, tiebreakers and parameters to 6 decimals, level assignments exactly; if a file has fewer rows than the state file tells, the program stops. The posterior samples the drivers read back are saved particles with every parameter to 6 decimals (two passes through a file cost no more than one), with order between parameters and ranges kept. If log X decreases by more than one part in 10^11 per level, the post-processing of these files ends with a result.", "quantifier": "all numbers of levels, particles and parameters, all real values of them (exponents of up to three digits), all random draws", "why_tests_cant": "three writers and three readers have to agree about column widths, headers, buffers and conversions for any values; a test sees the values of one run", "anchors": ["cdnest/dnest.c:save_levels, save_particle, print_particle", "cdnest/dnestpostprocess.c:postprocess", "src/dnest_line.c:print_particle_line, read_particle_line, print_par_names_line", "src/dnest_con.c:print_particle_con, read_particle_con", "src/mc_line.c:output_reconstruction"]}
{"id": "C104", "title": "The digits printed do not matter for the evidence", "statement": "The log-evidence calculated from the sampler's files differs from the one for the unrounded log-likelihoods by no more than the error of printing the log-likelihoods (half a unit of the seventh digit, divided by the temperature) and what twelve digits of log X can contribute.", "quantifier": "all sets of levels with decreasing prior mass, all samples, temperatures and random draws", "why_tests_cant": "a statement about the difference between a computation with and without the file in between, for all values; the exceptions need values at a threshold, which a test meets by accident only", "anchors": ["cdnest/dnest.c:save_levels, save_particle", "cdnest/dnestpostprocess.c:postprocess"]}
{"id": "C105", "title": "The matrix helpers compute the products they name and touch nothing else", "statement": "For matrices of any shape stored at any place of memory, multiply_mat*, multiply_matvec* and their _MN, _transposeA, _transposeB and _alpha_beta versions leave exactly the product named (with the old content entering only through beta) and change nothing but the result; the transposed matrix-vector product reads m and writes n elements. multiply_vec2mat leaves all products of two entries. The inverse of a symmetric matrix depends on its upper triangle only and replaces the whole matrix. An empty product is refused by the library.", "quantifier": "all shapes, all pointers into all arrays, all contents of memory, all factors", "why_tests_cant": "leading dimensions that are wrong only for non-square shapes, or a result written over an argument, show for particular shapes and placements only", "anchors": ["src/mathfun.c:multiply_mat, multiply_mat_MN, multiply_mat_MN_alpha_beta, multiply_mat_MN_transposeA, multiply_mat_MN_transposeB, multiply_matvec, multiply_matvec_MN, multiply_matvec_MN_transposeA, multiply_vec2mat, inverse_symat_lndet"]}
{"id": "C106", "title": "Determinants, their logarithms and signs are read off the LU factors correctly", "statement": "For every matrix and every output LAPACK may give for it, det_mat returns the determinant, lndet_mat the logarithm of its absolute value, lndet_mat3 and inverse_mat_lndet logarithm and sign (and the inverse), lndet_mat2 logarithm and -1 exactly if there is a negative eigenvalue, and Chol_decomp_U a factor M with A = M^T M; a singular matrix ends the program.", "quantifier": "all matrices of all sizes, all factorisations with row interchanges and factors bounded by 1", "why_tests_cant": "which rows are interchanged depends on the matrix; a test with a matrix that needs no interchange, or an even number, does not see a wrong sign", "anchors": ["src/mathfun.c:det_mat, lndet_mat, lndet_mat2, lndet_mat3, inverse_mat_lndet, Chol_decomp_U"]}
{"id": "C107", "title": "The likelihoods depend on nothing that earlier calls left in the shared work arrays", "statement": "Executed on memory, pointer by pointer, as in the source, the likelihood of the continuum never reads or writes outside of an array, never hands overlapping pieces to a library routine, and returns the value of its formula, whatever the work arrays hold on entry; in particular data sets of different lengths that use the same arrays one after the other do not disturb each other, and repeated calls agree.", "quantifier": "all numbers and sizes of data sets, all trends, all parameters, all contents of the work arrays", "why_tests_cant": "a value left over from an earlier call or a longer data set changes the result only for particular sequences of sizes; a test starts from fresh memory", "anchors": ["src/mc_con.c:prob_con_variability_semiseparable", "src/mathfun.c:compute_semiseparable_drw, multiply_mat_semiseparable_drw, multiply_matvec_semiseparable_drw, inverse_symat_lndet", "src/init.c:init"]}
{"id": "C108", "title": "The line likelihood used for sampling depends on nothing left in the shared work arrays", "statement": "Executed on memory, pointer by pointer, as in the source (trend, sizes kept as ints in an array of doubles, covariance, inversion band by band, fit of the trend, quadratic form), the likelihood of continuum and lines never reads or writes outside of an array, never hands overlapping pieces to a library routine and returns the value of its formula, whatever the work arrays hold on entry; data sets of different sizes and numbers of lines that use the same arrays one after the other do not disturb each other. If every data set has a line and enough different times the value is the sum of the marginal likelihoods.", "quantifier": "all numbers and sizes of data sets and lines (none empty), all covariance functions with positive definite covariance, all parameters, all contents of the work arrays, all layouts of ints in doubles", "why_tests_cant": "an overlap of pieces or a leftover value shows only for particular sizes and sequences of data sets; a test starts from fresh memory", "anchors": ["src/mc_line.c:prob_line_variability4, set_covar_Pmat_data_line_array", "src/mathfun.c:inverse_semiseparable, inverse_semiseparable_iter, inverse_symat_lndet_partition_inv_fast, inverse_symat_lndet_partition_inv_semiseparable", "src/init.c:init"]}
{"id": "C109", "title": "A step of the sampler leaves the mixture of likelihood-constrained priors invariant", "statement": "If a particle's parameters and level are distributed as the mixture over the levels of the prior restricted to likelihoods above the level's threshold, with weights exp(j/lambda)/X_j while levels are created and (tries+1)^(-beta)/X_j afterwards, they are so distributed after a step of the sampler, and the step completes with probability one. This holds for the moves of the continuum and of the line model with the sampler's own laws of random numbers; the prior of the line model is Gaussian in the variability parameters, flat in the others on ordered lags, times the penalties, with common lags copied. While levels are created, and afterwards if beta is 0, it holds for the whole step (both moves in random order); with another beta it holds for each of the two moves with the weights at its beginning. The priors are finite measures.", "quantifier": "all likelihoods, all level tables and limits, all configurations of the continuum and line model, all choices of the moved parameter, all tie breakers, all test functions of parameters and level", "why_tests_cant": "stationarity is a statement about the distribution over all random numbers and all states; a test can compare histograms for one likelihood up to sampling noise", "anchors": ["cdnest/dnest.c:update_particle, update_level_assignment, dnest_mcmc_run, dnest_randh, mod_int, log_push", "src/dnest_con.c:perturb_con", "src/dnest_line.c:perturb_line_prior0, perturb_line_prior1, check_positivity, check_gap, set_center_width"]}
{"id": "C110", "title": "The Python interface hands out the lags and widths of the line that is asked for", "statement": "For a data set and a line that exist, get_posterior_sample_timelag and get_posterior_sample_width return, for every number of components and every posterior sample, the lags and the logarithmic widths of the components of that line; the numbers of lines of the data sets the interface goes by are those of the data sets the C code reads.", "quantifier": "all configurations of data sets and lines, all numbers of components, all posterior samples, all data sets and lines asked for, all data files", "why_tests_cant": "the columns depend on the numbers of lines of all data sets, on the number of components and on two flags; a test with one data set never meets the loop over the data sets", "anchors": ["python/pymica/pymica.pyx:get_posterior_sample_timelag, get_posterior_sample_width, _get_data_dimension, setup", "src/dnest_line.c:set_par_range_line, idx_line_pm", "src/read.c:read_data"]}
{"id": "C111", "title": "prepare() puts in place the snapshots from which restart() goes on", "statement": "After a run, prepare() of the Python interface copies, for every number of components, the snapshot taken after the last save to the file that restart() reads, changes no other file, and reports an error if a snapshot is missing; restart() then reads exactly these files.", "quantifier": "all ranges of the number of components, all output directories, all sample files, all arguments of prepare, all calls made before", "why_tests_cant": "the number of saves is taken from the number of lines of a text file written by C code, and the names of the files differ between the models; a test with one number of components or one model does not meet the differences", "anchors": ["python/pymica/pymica.pyx:prepare, restart", "src/dnest_line.c", "cdnest/dnest.c:save_particle, dnest_restore", "docs/resume.rst"]}
{"id": "C112", "title": "What a call of the Python interface does does not depend on the calls before it", "statement": "run(), post_run(), restart(), decompose() and print_para_names() do, in any order and any number, what the program does when it is started with no option, -p, -r, -d and -n.", "quantifier": "all sequences of calls, all models, all ranges of the number of components, all directories", "why_tests_cant": "the order of calls in a session is not bounded, the flags live in global variables of the C code", "anchors": ["python/pymica/pymica.pyx:run, post_run, decompose, restart, print_para_names", "src/run.c", "src/mc_con.c", "src/mc_line.c", "src/init.c"]}
{"id": "C113", "title": "Priors given to the Python interface are the priors that are used", "statement": "The limits of lags, widths, ratios and gaps given to setup() as lists of pairs of numbers are, up to rounding to six places, the limits that the C code uses for every number of components and every data set, and the text in which they are handed over fits its array.", "quantifier": "all lists of pairs of real numbers, all numbers of components, all numbers of data sets", "why_tests_cant": "the numbers travel as a text of any length that is written by Python and parsed by hand-written C code; which lengths and values survive is a statement about all of them", "anchors": ["python/pymica/pymica.pyx:setup", "src/dnest_line.c:set_par_range_line, get_lag_prior", "src/read.c", "src/allvars.h", "docs/gap.rst"]}
{"id": "C114", "title": "Light curves handed over from Python are those that are analysed", "statement": "The light curves given to setup() as arrays, or written with format_mica(), reach the C code with the same number of data sets, light curves and points, in the same order, each number to the accuracy with which it is printed; light curves given as None or as empty arrays are left out.", "quantifier": "all numbers of data sets and of light curves, all arrays of real numbers of any length, all shapes of the arrays", "why_tests_cant": "the arrays travel through a text file whose header and numbers are written by Python and parsed by C; which shapes, lengths and magnitudes survive is a statement about all arrays", "anchors": ["python/pymica/pymica.pyx:create_data_file", "genmockdata.py:format_mica", "src/read.c:read_data", "docs/format.rst"]}
{"id": "C115", "title": "Post-processing from Python gives the numbers of the C program", "statement": "postprocess() of the Python interface, run on the level and sample files of a run, gives the evidence, the information and the effective number of posterior samples that the C program computes from the same files.", "quantifier": "all level files and sample files, all temperatures, all random numbers used to break ties in the ordering", "why_tests_cant": "two independent implementations are compared on all files of any length, with ties, clamped levels and random tie breakers", "anchors": ["python/pymica/postprocess.py:postprocess", "cdnest/dnestpostprocess.c:postprocess"]}
{"id": "C116", "title": "Columns of the posterior sample carry the names of what they hold", "statement": "postprocess.get_posterior_sample() attaches to each column of the posterior sample the name of the parameter that the C code stores there: systematic error, sigma and tau of the continuum of a data set, systematic error of each light curve, amplitude (or ratio), centroid and width of each component of each light curve; all names are different.", "quantifier": "all models with components, all numbers of data sets, of light curves and of components, all settings of the flags", "why_tests_cant": "the names are found by counting text patterns in a file written by the C code; that they agree with the layout for all sizes is a statement about all configurations", "anchors": ["python/pymica/postprocess.py:get_posterior_sample", "src/dnest_line.c:print_para_names_line"]}
{"id": "C117", "title": "The parameter file of a Python session repeats the analysis", "statement": "setup() of the Python interface writes param/param_input; running the C program with that file analyses the data with the settings of the Python object: same model, limits, priors, flags and options of the sampler.", "quantifier": "all five classes, all sequences of calls of setup with any arguments, all values whose texts are read back", "why_tests_cant": "a Python writer and a C reader are compared for all settings; the differences arise in particular combinations only", "anchors": ["python/pymica/pymica.pyx:print_parset", "python/pymica/pymica.pyx:setup", "src/read.c:read_parset"]}
{"id": "C118", "title": "Settings depend on the last call of setup only", "statement": "When setup() is called again on an object of the Python interface, the settings afterwards are those that a new object would get from the same arguments; nothing of earlier calls remains.", "quantifier": "all classes, all histories of calls with any arguments, all arguments of the last call", "why_tests_cant": "it ranges over all histories of calls; what remains depends on which optional arguments were given in which call", "anchors": ["python/pymica/pymica.pyx:setup", "python/pymica/pymica.pyx:basis"]}
{"id": "C119", "title": "setup accepts what the C program accepts", "statement": "setup() of the Python interface refuses settings that the C program refuses when it reads them from a parameter file, and accepts the others.", "quantifier": "all classes, all arguments", "why_tests_cant": "two sets of checks in two languages are compared on all settings", "anchors": ["python/pymica/pymica.pyx:setup", "src/read.c:read_parset"]}
{"id": "C120", "title": "The first particles are drawn from the prior", "statement": "The functions from_prior give the sampler first particles whose distribution, over the random numbers, is the prior that the moves use: the same measure, scaled to 1.", "quantifier": "all configurations; the distribution ranges over all random numbers", "why_tests_cant": "equality of two probability distributions on all sets; samples can only suggest it", "anchors": ["src/dnest_con.c:from_prior_con", "src/dnest_line.c:from_prior_line", "src/dnest_con.c:perturb_con", "src/dnest_line.c:perturb_line"]}
{"id": "C121", "title": "Likelihoods that are not numbers stay out of the result", "statement": "A likelihood function may return NaN or an infinity for some parameters. Such points are treated as points of likelihood zero: proposals there are refused, thresholds of levels remain numbers that never decrease, every particle above the first level has a likelihood that reaches its threshold, and nothing of them reaches the evidence or the posterior samples.", "quantifier": "all likelihood functions into the doubles, all options, all random numbers, any number of rounds, tasks and particles", "why_tests_cant": "whether one of the first particles falls on such a point, and whether it is the one saved, depends on the random numbers; the claim is about every run", "anchors": ["cdnest/dnest.c:update_particle", "cdnest/dnest.c:update_level_assignment", "cdnest/dnest.c:dnest_mcmc_run", "cdnest/dnest.c:do_bookkeeping", "cdnest/dnest.c:setup", "cdnest/dnestpostprocess.c:postprocess"]}
{"id": "C122", "title": "Prior ranges hold in floating-point arithmetic", "statement": "Also with every operation rounded to the nearest double, folding a proposal into a range [lo,hi] gives a number inside [lo,hi], and every free parameter of the continuum run stays inside its range after any number of moves.", "quantifier": "all ranges, proposals, random numbers and numbers of moves; all sets of representable numbers containing 0 and 1 (or the doubles), all rules for ties", "why_tests_cant": "only proposals within about 1e-16 of the width below the lower limit can leave the range; random tests never produce one, and the claim is about every rounding", "anchors": ["cdnest/dnest.c:mod", "cdnest/dnest.c:dnest_wrap", "src/dnest_con.c:from_prior_con", "src/dnest_con.c:perturb_con"]}
{"id": "C123", "title": "Default prior and default moves of the sampler library agree", "statement": "If the caller of dnest() leaves from_prior and perturb empty, the first particles have the distribution described by the ranges, prior types and prior informations, all parameters stay in their ranges, and steps of the sampler leave that distribution (restricted to likelihoods above the thresholds of the levels) invariant.", "quantifier": "all numbers of parameters, ranges, prior types and informations, all likelihood functions, level tables, laws of the Student-t number; both default moves", "why_tests_cant": "it is an equality of probability distributions", "anchors": ["cdnest/dnest.c:dnest_from_prior", "cdnest/dnest.c:dnest_perturb", "cdnest/dnest.c:dnest_perturb_limit", "cdnest/dnestvars.h:PRIOR_TYPE"]}
{"id": "C124", "title": "Function sets are completed according to the options of the call", "statement": "dnest() stops if no likelihood is given; otherwise it keeps all functions the caller gave and completes the set: with -l by the level-dependent default move, without it by the plain one, whatever calls were made before in the process.", "quantifier": "all function sets, all sequences of calls with and without -l", "why_tests_cant": "it ranges over all sequences of calls in one process", "anchors": ["cdnest/dnest.c:dnest", "cdnest/dnest.c:dnest_check_fptrset", "cdnest/dnest.c:dnest_malloc_fptrset", "cdnest/dnestvars.c:dnest_flag_limits"]}
{"id": "C125", "title": "When the number of levels is automatic, levels stop being added once they flatten", "statement": "With the number of levels left open (max_num_levels = 0) the sampler creates levels until the log-likelihood thresholds stop growing, and exactly then: the mean growth over the levels looked at is below max_ptol and every single growth below 1.1 max_ptol. No run stops earlier, no run goes on later, and a run that reaches 1000 levels ends with an error.", "quantifier": "all level tables, all lists of likelihoods handed to the bookkeeping, all options", "why_tests_cant": "it ranges over all sequences of thresholds, including those where the growth goes below the limit and back", "anchors": ["cdnest/dnest.c:enough_levels", "cdnest/dnest.c:do_bookkeeping"]}
{"id": "C126", "title": "Data sets that share nothing can be analysed together or separately", "statement": "If neither the variability parameters nor the transfer functions are common to all data sets, the joint run is the product of runs on any two parts of the list of data sets: prior, likelihood, evidence and posterior factorise, and the parameters of the parts are independent a posteriori.", "quantifier": "all configurations with both options off, all divisions of the list of data sets, all data, all numbers of lines and components, all types of transfer functions, all parameter vectors, all contents of the work space, all four implementations of the likelihood", "why_tests_cant": "it is an equality of probability measures and holds for all data and parameter vectors", "anchors": ["src/dnest_line.c:from_prior_line", "src/dnest_line.c:log_likelihoods_cal_line", "src/mc_line.c:prob_line_variability4", "src/dnest_line.c:set_idx_line_pm"]}
{"id": "C127", "title": "Options of the sampler library mean the same in any order and in every call", "statement": "A caller of dnest() passes options as an argument vector. Each option has the value of its last occurrence or its default, whatever the order of the options and whatever was passed to earlier calls in the same process; values outside the accepted ranges end the program.", "quantifier": "all argument vectors in the grammar of getopt (grouped, joined and separate values, operands in between), all states left behind by earlier calls, all sequences of calls", "why_tests_cant": "it ranges over all argument vectors and all histories of calls in a process", "anchors": ["cdnest/dnest.c:dnest", "cdnest/dnestvars.c:dnest_compression", "src/mygetopt.c:my_getopt"]}
{"id": "C128", "title": "The transfer functions plotfig.py writes are those of the fitted model", "statement": "For every posterior sample, every line of every data set and every lag of its grid, plotfig.py computes the transfer function that the likelihood used for that sample; the file tranfunc_{m}_{j}.txt_{n} has its median over the samples and limits that enclose 68.3% of them; every result of a run is plotted.", "quantifier": "all configurations (shared or separate transfer functions and variability parameters, numbers of data sets, lines and components, transfer function types, the four model types), all samples, all grids", "why_tests_cant": "it relates two programs in two languages for all parameter vectors and all grids; the errors show only for some types and modes", "anchors": ["plotfig.py:_calculate_tran", "plotfig.py:plot_results", "plotfig.py:plot_results_all", "src/dnest_line.c:set_idx_line_pm", "src/mc_pmap.c:transform_response_ratio"]}
{"id": "C129", "title": "The lags plotfig.py prints are centroids of the fitted transfer functions with 68.3% limits", "statement": "For every sample the lag that enters the table is the centroid of the transfer function used by the likelihood for that sample. The table has the median over the samples and limits that are never negative and enclose 68.3% of the samples; it does not depend on the order of the samples and follows a common shift of the lags.", "quantifier": "all configurations without negative responses, all four model types, all transfer function types, all non-empty lists of samples", "why_tests_cant": "it is an identity between integrals and a sum of parameters for all samples, and a counting statement for lists of any length", "anchors": ["plotfig.py:_get_time_lag", "plotfig.py:plot_results", "src/mc_line.c:Slc_array"]}
{"id": "C130", "title": "Every panel of the plotting scripts shows the light curve it belongs to", "statement": "In plotfig.py and plotdecomp.py the panel for a light curve of a data set shows the points of that light curve, its reconstruction, the trend fitted to it, and the transfer function of the fitted model, for files with any number of data sets and lines.", "quantifier": "all files: all numbers of data sets, lines and points; all samples and grids", "why_tests_cant": "it ranges over all shapes of files; a wrong panel does not raise an error", "anchors": ["plotfig.py:plot_results", "plotfig.py:plot_results_con", "plotdecomp.py:plot_line_decomp", "plotdecomp.py:_calculate_tran"]}
{"id": "C131", "title": "The sampler can get everywhere", "statement": "In the continuum stage and in the line, photometric and mixed modes, the sampler's moves can take a particle from any point of the prior at any level to any other point of the prior and to any level whose likelihood threshold that point exceeds, leaving the other particles as they are; separate peaks of the likelihood are never cut off from each other.", "quantifier": "all configurations (fixed parameters, ordered or shared lags, penalties), all likelihoods above the lowest threshold, all tables of levels, all start and target points", "why_tests_cant": "a test sees finitely many moves; that no part of the prior is unreachable is a statement about all targets and all sequences of random numbers", "anchors": ["src/dnest_con.c:perturb_con", "src/dnest_line.c:perturb_line_prior0", "src/dnest_line.c:perturb_line_prior1", "cdnest/dnest.c:update_particle", "cdnest/dnest.c:update_level_assignment"]}
{"id": "C132", "title": "Mock light curves follow the transfer function they are made with", "statement": "The mock line that simlc writes is, at every epoch on its time grid, the continuum's variation convolved with the transfer function entered, normalised to unit area (only ratios of amplitudes matter), for lags of either sign; and a component entered with a given type, centre and width is the component that the fitted model calls by these parameters.", "quantifier": "all continua, all lists of components, all lag ranges that start on the grid and fit in the simulated span, all epochs on the grid", "why_tests_cant": "a plot of one mock light curve does not show that Fourier products, padding, wrap-around, shift and interpolation compose to the sum for every continuum and lag range", "anchors": ["genmockdata.py:simlc", "genmockdata.py:convolve_fft", "genmockdata.py:gauss", "genmockdata.py:tophat", "genmockdata.py:gamma", "genmockdata.py:exponential", "src/mc_line.c"]}
{"id": "C133", "title": "The mock continuum has the variance asked for", "statement": "The light curve made by drw(tot, [sigma, tau, cnoise]) has mean one, is stationary, and its variance is the integral of the power spectrum over all frequencies, sigma squared.", "quantifier": "all sigma, tau, lengths and epochs; all laws of the random numbers with mean zero, unit variance and no correlations", "why_tests_cant": "the variance is an expectation over all random numbers; the sample variance of a red-noise curve scatters too much for a test to tell normalisation from chance", "anchors": ["genmockdata.py:genlc_psd_drw", "genmockdata.py:drw", "genmockdata.py:psd_drw"]}
{"id": "C134", "title": "The unit of time does not matter", "statement": "If all times of the data are given in another unit (days, hours, years) and damping time, lags, widths and the amplitude per square root of time are converted, every likelihood of the program (continuum, lines, mode without continuum) changes by a constant that does not depend on the parameters and is zero without trend; and the prior ranges are those of the old unit converted, so the posterior is the same.", "quantifier": "all data sets, units, parameter vectors, numbers and types of components, trend orders and options", "why_tests_cant": "covers all units and all parameters of every covariance function at once; thresholds and limits that are absolute numbers show only at particular parameters or spans", "anchors": ["src/mc_line.c", "src/mc_mmap.c", "src/mc_vmap.c", "src/mc_con.c", "src/init.c:init", "src/dnest_con.c:set_par_range_con", "src/dnest_con.c:perturb_con", "cdnest/dnest.c:mod"]}
{"id": "C135", "title": "Close to the damping timescale the covariances are right to about one part in ten thousand", "statement": "Where a width is so close to the damping timescale that the code switches to a limiting formula (relative distance below EPS), the covariance of continuum and line still differs from the integral over the transfer function by at most 4e-5 times the sum of the absolute amplitudes, and that of two lines from the double integral by at most 1.2e-4 times the product of the two sums. If every point has noise of relative variance above 1.2e-4 times the number of points times the squared size of the responses, the matrix of the code is positive definite, and all four line likelihoods return the normal density of the data integrated over the trend, inside the band as well.", "quantifier": "all times, lags, widths, damping timescales, amplitudes of either sign, numbers of lines and components; one type of transfer function for all components (every mode but the mixture), and for mixtures all pairs of equal type and the pairs of different type outside the threshold of their formula", "why_tests_cant": "a bound on the error over a continuum of parameters on both sides of the switch, at all time differences; sampling it cannot exclude a worse point", "anchors": ["src/mc_line.c:Slc_exp", "src/mc_line.c:Sll_exp", "src/mc_line.c:Slc_gamma", "src/mc_line.c:Sll_gamma", "src/mc_mmap.c", "src/mc_line.c:set_covar_Pmat_data_line"]}
{"id": "C136", "title": "A model with more components contains those with fewer", "statement": "If the components of a model with fewer components are split into parts (same type, lag and width, amplitudes adding up) and components without amplitude are added, every likelihood of the program is unchanged, also where it ends abnormally. With freely ordered lags (type_lag_prior 0), every parameter vector that the prior of n components allows, and whose last amplitude is at least twice the lower limit (no condition if negative responses are allowed), has a vector in the prior of n+1 components with the same likelihood; so the best fit cannot get worse with more components, up to that limit.", "quantifier": "all data sets, numbers of components and ways to split them, types and mixtures, widths (also within the band around the damping time), sharing of transfer functions and continuum parameters, fixed systematic errors", "why_tests_cant": "compares two models of different dimension at every parameter vector of the smaller one; tests compare single fits, whose maxima are random", "anchors": ["src/mc_line.c:Slc_gauss", "src/mc_line.c:Sll_gauss", "src/mc_line.c:Sll2_gauss", "src/mc_line.c:prob_line_variability4", "src/mc_mmap.c", "src/mc_vmap.c", "src/dnest_line.c:set_par_range_line", "src/dnest_line.c:dnest_line"]}
{"id": "C137", "title": "Measurements taken at the same time may be averaged", "statement": "Replacing two measurements of one light curve at the same time by their average weighted with the inverse squares of their errors (error: inverse root of the summed weights) changes the log-likelihood, in the continuum stage and in the line stage, by a number made of the two values and errors only, the same for all parameters, transfer functions and variants of the likelihood; so posteriors and evidence ratios are unchanged. The light curve must be without systematic error, as by default.", "quantifier": "all data sets, light curves (continuum or line), positions of the pair, parameter vectors, covariance functions that give a positive definite matrix, trend orders", "why_tests_cant": "an identity between likelihoods of data of different length at every parameter; a test compares a few numbers and cannot tell a parameter-dependent difference from rounding", "anchors": ["src/mc_line.c:prob_line_variability4", "src/mc_line.c:prob_line_variability", "src/mc_con.c:prob_con_variability", "src/mc_con.c:prob_con_variability_semiseparable", "src/read.c:read_data"]}
{"id": "C138", "title": "More or better measurements never make a reconstruction less certain", "statement": "For given parameters, adding measurements to the light curves of a data set, or making measurement errors smaller, never increases the error that is reported for the reconstructed continuum, lines or virtual continuum at any time; without a trend the error of the continuum is never above its standard deviation.", "quantifier": "all data sets and data sets containing them, parameter vectors, transfer functions, reconstruction times, flux values, trend orders", "why_tests_cant": "compares pairs of data sets of different size at all parameters; a test sees single light curves, where a wider band after adding a point goes unnoticed", "anchors": ["src/mc_con.c:recostruct_con_from_varmodel_semiseparable", "src/mc_line.c:reconstruct_line_from_varmodel3", "src/mc_vmap.c:reconstruct_line_from_varmodel_vmap", "src/read.c:cal_mean_error"]}
{"id": "C139", "title": "What a measurement adds to the likelihood is its probability given the reconstruction from the others", "statement": "The likelihood that drives the sampling and the reconstruction that is written out rest on the same model: leaving any one measurement out of any light curve lowers the log-likelihood by exactly the logarithm of the normal density of its value around the reconstruction from the remaining data at its time, with the squares of the reported reconstruction error, of the measurement error and of the systematic error as variance. A measurement with a very large error has no influence.", "quantifier": "all data sets, light curves and measurements in them, parameter vectors, transfer functions, trend orders; all error sizes", "why_tests_cant": "relates two large computations in different files for every measurement of every data set and all real parameters; tests see either a likelihood or a reconstruction", "anchors": ["src/mc_con.c:prob_con_variability_semiseparable", "src/mc_con.c:recostruct_con_from_varmodel_semiseparable", "src/mc_line.c:prob_line_variability4", "src/mc_line.c:reconstruct_line_from_varmodel3"]}
{"id": "C140", "title": "No direction of time for symmetric transfer functions", "statement": "The sign of the lag is a convention and nothing in the analysis prefers one direction of time as long as the transfer function is symmetric: reversing time in all light curves (opposite sign of the times, order of the measurements reversed so that times ascend) and reversing the sign of all lags leaves the continuum likelihoods, the four line likelihoods and those of the mode without continuum unchanged, for Gaussian and top-hat components in any mixture. An exponential component does have a direction: no exponential component describes the reversed light curves.", "quantifier": "all data sets, parameter vectors, numbers of lines and components, mixtures of Gaussian and top-hat components, trend orders", "why_tests_cant": "an exact symmetry of the covariance functions, with their branches for each sign of the time difference, and of the assembled matrices, over all real inputs; floating-point tests only see approximate equality at samples", "anchors": ["src/mc_line.c:Slc_tophat", "src/mc_line.c:Sll_tophat", "src/mc_line.c:Slc_gauss", "src/mc_line.c:prob_line_variability4", "src/mc_con.c:prob_con_variability_semiseparable", "src/mc_vmap.c:prob_line_variability4_vmap"]}
{"id": "C141", "title": "The line stage keeps what the continuum stage found", "statement": "Between the two stages the posterior of the continuum parameters is reduced to means and standard deviations. The range the line stage gives to each of these parameters lies within the prior, contains the posterior mean and more than 96% of the sample of the continuum stage (all but at most (n-1)/25 of n values; all of them if n is at most 26), whatever the shape of the posterior. It is an interval unless all sampled values are equal. In that case, which includes a sample of a single point, the parameter is held at that value for the whole line stage: every proposal folds back to it and is rejected, since its prior ratio is not a number.", "quantifier": "all posterior samples (any size, any values inside the prior), all configurations of the line stage, all continuum parameters; for a held parameter all states, proposals, random numbers and levels", "why_tests_cant": "distribution-free bounds (Chebyshev, Samuelson) over all samples of all sizes and the degenerate case of zero standard deviation; a test sees a few well-behaved posteriors", "anchors": ["src/mc_con.c:mc_con", "src/dnest_line.c:set_par_range_line", "src/dnest_line.c:perturb_line_prior0", "src/dnest_pmap.c:set_par_range_pmap", "src/dnest_mmap.c:perturb_mmap_prior0"]}
{"id": "C142", "title": "Only the order of likelihoods matters to the sampler", "statement": "With a given number of levels, replacing the log-likelihood by any increasing function of it changes nothing in a run of the sampler, for the same random numbers, except the likelihood values themselves: same moves, levels created at the same times with the same prior masses, same counters and limits, same saved parameters, same exit or failure. Adding a constant (a normalisation left out, another unit of flux) has no other effect even if the number of levels is chosen automatically, and the postprocess then reports an evidence larger by that constant over the temperature and the same weights, information, effective sample size and posterior sample.", "quantifier": "all likelihood functions with values above the lowest double, all increasing functions, all constants, all options, numbers of tasks, initial draws, proposals and random numbers, all lengths of the run; all temperatures and postprocess draws", "why_tests_cant": "a relation between two whole executions of a stochastic program for every likelihood and every sequence of random numbers; a test compares single runs", "anchors": ["cdnest/dnest.c:update_particle", "cdnest/dnest.c:update_level_assignment", "cdnest/dnest.c:do_bookkeeping", "cdnest/dnest.c:enough_levels", "cdnest/dnest.c:dnest_cmp", "cdnest/dnestpostprocess.c:postprocess"]}
{"id": "C143", "title": "The transfer functions of the likelihood and of the figures are those asked for", "statement": "The transfer functions that the line likelihood uses for each component are those selected: by the numbers 0 to 3 of TypeTF in a parameter file, by the digits of StrTypeTFMix in mixture mode, by the names 'gaussian', 'tophat', 'gamma', 'exp' or digits of type_tf in the Python classes, after any sequence of calls of setup. The figures of plot_results draw the same functions. Anything else is refused.", "quantifier": "all parameter files that are accepted, all modes, all sequences of calls of setup with all arguments, all numbers of components and all components", "why_tests_cant": "the selection goes through Python texts, C strings, numbers and function pointers in several modes, and depends on earlier calls of setup; tests try single settings", "anchors": ["src/init.c:init", "src/mc_mmap.c", "src/read.c:read_parset", "python/pymica/pymica.pyx:setup", "python/pymica/pymica.pyx:plot_results", "python/pymica/utility/plotfig.py", "python/pymica/utility/plotdecomp.py"]}
{"id": "C144", "title": "The evidence is the mean likelihood of each level weighted with its prior mass", "statement": "The log-evidence reported after a run is the logarithm of a mean over the levels of the mean likelihood (to the power 1/temperature) of the samples that lie in each, with the prior mass between the level and the next times n/(n+1) as weight of a level with n samples. All samples of a level carry the same prior mass; their ranks and tiebreakers have no influence, and levels without samples do not count. If every level that has samples has N or more, the log-evidence differs by at most log(1+1/N) from the sum of prior mass times mean likelihood over these levels divided by their mass; if all levels have samples that mass is 1 - exp(-1e300).", "quantifier": "all lists of levels with decreasing prior masses, all sample files whose level numbers are in range, all temperatures, all random numbers for which the program ends normally", "why_tests_cant": "the code sorts, interpolates log X between ranks and applies a trapezoidal rule in logarithms; that the ranks cancel exactly for every number of samples is an algebraic fact about all inputs", "anchors": ["cdnest/dnestpostprocess.c:postprocess"]}
{"id": "C145", "title": "get_evidence hands out the evidences of the last computation", "statement": "After run, post_run, decompose or restart, get_evidence of the Python classes hands out one entry logz_i per number of components asked for in the last call of setup, and it is the evidence the sampler found for i components in that call, the same as in data/evidence.txt; for the null model the one in data/evidence_con.txt. Calls that compute no evidences do not change what it hands out. It never reads memory that was not written.", "quantifier": "all classes, all ways to make the object, all sequences of calls of setup, run, post_run, decompose, restart and print_para_names, all numbers of components, all evidences", "why_tests_cant": "the evidences are kept behind a raw pointer whose block is replaced by setup and written by C code depending on global flags; reading what was never written need not show in a test", "anchors": ["python/pymica/pymica.pyx:get_evidence", "python/pymica/pymica.pyx:__cinit__", "python/pymica/pymica.pyx:setup", "python/pymica/pymica.pyx:print_para_names", "src/mc_line.c:mc_line", "src/mc_pmap.c:mc_pmap", "src/mc_vmap.c:mc_vmap", "src/mc_mmap.c:mc_mmap", "src/dnest_line.c:dnest_line"]}
{"id": "C146", "title": "From the first draw to the posterior sample file, every vector is inside the prior and carries its own likelihood", "statement": "Run the sampler with the continuum model or a line model (without the option of positive lags): draw the first particles with the model's from_prior, move them with its perturb, create levels, copy particles between them, save samples, stop at any time, resume from a snapshot of any earlier moment with any number of samples asked for, post-process. At every moment every particle of every task and every saved sample has its free parameters inside the prior ranges, fixed parameters at their values, shared ones equal, ordered lags in order, and the likelihood of its own parameters; every row of posterior_sample is such a vector to half a unit of the sixth decimal, in the row of posterior_sample_info with its likelihood; there is no undefined behaviour on the way.", "quantifier": "all prior ranges, fixed values and line configurations (positive-lag option off), all likelihood functions, all options the sampler accepts, all numbers of tasks and particles, all random numbers, all histories of rounds, interruptions and resumptions, all files so written", "why_tests_cant": "the claim is about every history of every length and goes through four parts of the program (model, sampler, restart, post-processing) that are only ever tested one by one, if at all", "anchors": ["src/dnest_con.c:from_prior_con", "src/dnest_con.c:perturb_con", "src/dnest_line.c:from_prior_line", "src/dnest_line.c:perturb_line_prior0", "src/dnest_line.c:perturb_line_prior1", "cdnest/dnest.c:dnest_run", "cdnest/dnest.c:dnest_mcmc_run", "cdnest/dnest.c:update_particle", "cdnest/dnest.c:save_particle", "cdnest/dnest.c:dnest_save_restart", "cdnest/dnest.c:dnest_restart", "cdnest/dnestpostprocess.c:postprocess"]}
{"id": "C147", "title": "The size of a step comes from the level below and never exceeds the prior", "statement": "At the start of every round the step of a free parameter is a random number times a width. The width is the prior range for particles in the lowest level (the lowest six for the line models without ordered lags) or while there are too few levels; otherwise it is the extent of the values that particles had when they entered the level below or a higher one. It is never negative, never more than the prior range, and never larger for a particle in a higher level. Inside a round the same bounds hold, except for a particle that has just jumped over levels that no particle has entered before: its width is that of the limits of the start.", "quantifier": "all runs of the continuum and line models from the first draw, any number of tasks, rounds, levels, particles, interruptions and resumptions, all random numbers", "why_tests_cant": "the widths depend on the limits collected by all tasks over the whole run and merged after every round", "anchors": ["src/dnest_con.c:perturb_con", "src/dnest_line.c:perturb_line_prior0", "src/dnest_line.c:perturb_line_prior1", "cdnest/dnest.c:update_level_assignment", "cdnest/dnest.c:dnest_run", "cdnest/dnest.c:dnest_restart"]}
{"id": "C148", "title": "The evidence lies between the likelihoods of the samples, and falls as it should with the temperature", "statement": "Every saved sample has one prior mass, positive and 1 in total, that does not depend on the temperature: the evidence is the mean of the tempered likelihoods with these masses. So the log-evidence lies between the log-likelihoods over the temperature of the worst and of the best sample, hence between any bounds of the likelihood on the prior, and the information is at most the gain of the best sample over the evidence. For the same samples at two temperatures, temperature times log-evidence never rises with the temperature, nor does the posterior mean of the log-likelihood, which is temperature times information plus log-evidence; and each evidence bounds the other through that mean.", "quantifier": "all levels, samples, draws and positive temperatures with which postprocess ends; all runs of the continuum and line models from the first draw", "why_tests_cant": "an inequality between outputs for all samples and pairs of temperatures; a test compares a few numbers", "anchors": ["cdnest/dnestpostprocess.c:postprocess", "cdnest/dnest.c:dnest"]}
{"id": "C149", "title": "Whole runs in the virtual-continuum mode, and with likelihoods that are not numbers", "statement": "Run the sampler in the virtual-continuum mode: draw the first particles with from_prior_vmap, move them with perturb_vmap, create levels, copy and save particles. At every moment every particle of every task and every saved sample has its free parameters inside the prior, fixed ones at their values, ordered lags in order and the likelihood of its own parameters, no round has undefined behaviour, and the continuum parameters are sampled like the others. The same holds of the continuum and line models with a likelihood that is NaN or minus infinity somewhere.", "quantifier": "all configurations of ranges, lines and options (positive-lag option off), all likelihood functions into the doubles without plus infinity, all options the sampler accepts, all numbers of tasks, particles, steps and rounds, all random numbers", "why_tests_cant": "the claim is about every history of every length; that a parameter is never sampled does not show in a run, whose first draws are scattered like a prior", "anchors": ["src/dnest_vmap.c:from_prior_vmap", "src/dnest_vmap.c:perturb_vmap_prior0", "src/dnest_vmap.c:perturb_vmap_prior1", "cdnest/dnest.c:dnest_run", "cdnest/dnest.c:dnest_mcmc_run", "cdnest/dnest.c:update_particle", "cdnest/dnest.c:save_particle"]}
{"id": "C150", "title": "Whole runs in photometric mode keep every limit the user gave, from the first draw to the posterior sample file", "statement": "Run the sampler in photometric mode (TypeModel 1) from the first draw, stop it at any time, resume it from a snapshot of any earlier moment, post-process. At every moment every particle and every saved sample has the first amplitudes in their range, the response ratios inside StrRatioPrior, the lags inside StrLagPrior, the widths inside the width limits, and the likelihood of its own parameters; the response of a later component is its ratio times the first amplitude; every row of posterior_sample has each lag inside its pair of StrLagPrior to half a unit of the sixth decimal. No round has undefined behaviour, and the run never stops by itself.", "quantifier": "all accepted settings of the priors, all numbers of components, data sets and lines, all likelihood functions, all options the sampler accepts, all histories of rounds, interruptions and resumptions, all random numbers", "why_tests_cant": "the ranges come from three text options, defaults and hard-coded corrections, and the claim is about every history of the sampler; a run that stops does so at the first move of one particular parameter", "anchors": ["src/mc_pmap.c:mc_pmap_init", "src/mc_pmap.c:transform_response_ratio", "src/dnest_pmap.c:dnest_pmap", "src/dnest_pmap.c:from_prior_pmap", "src/dnest_pmap.c:perturb_pmap", "cdnest/dnest.c:dnest_run", "cdnest/dnestpostprocess.c:postprocess"]}
{"id": "C151", "title": "The progress bar tells the truth and never stops a run", "statement": "While the sampler runs and while light curves are reconstructed or decomposed, the bar that is printed shows the whole percentage and the number of steps done, its marks are the fiftieths done, and the line is ended exactly when all is done. Printing it is free of undefined behaviour for every accepted number of saves, including 0 (which the main loop takes as: without end), and for every number of posterior samples and tasks.", "quantifier": "all numbers of saves asked for and done, all states of all runs, all numbers of posterior samples and tasks, all single-precision roundings", "why_tests_cant": "the failures are at special numbers (no limit, no sample, more than 21 million saves, memory never written) that a test run does not have", "anchors": ["cdnest/progress-bar.c:pb_init", "cdnest/progress-bar.c:pb_print", "cdnest/dnest.c:dnest_run", "cdnest/dnest.c:save_particle", "cdnest/dnest.c:setup", "src/mc_line.c:output_reconstruction_parallel", "src/line_decomp.c:output_decompose_line_parallel"]}
{"id": "C152", "title": "A run starts exactly if its directories are there", "statement": "A run that is started has the directories data/ and param/ and the data file where its parameter file says (FileDir, by default the current directory), and a run for which they exist is started. If one is missing the run stops with a message before anything is computed, and no directory is made or replaced. The sampler's own check of its directory makes a missing one and refuses a file in its place. The Python class makes both directories in the current directory if they are missing and touches nothing else.", "quantifier": "all file systems (trees of directories and files without links), all current directories, all names FileDir, DataFile and options files, continuum and line stages", "why_tests_cant": "tests run in a prepared directory with FileDir ./; the claim is about every other combination of current directory, FileDir and what is missing", "anchors": ["src/run.c:begin_run", "src/read.c:read_parset", "src/read.c:read_data", "src/read.c:scale_con_line", "src/mc_con.c:mc_con_init", "src/mc_line.c:mc_line_init", "src/init.c:write_options_con", "cdnest/dnest.c:dnest_check_directory", "cdnest/dnest.c:options_load", "cdnest/dnest.c:setup", "python/pymica/pymica.pyx:basis.__cinit__"]}
{"id": "C153", "title": "Objects of the Python interface do not disturb one another", "statement": "A run of an object of the Python interface analyses the data with the settings of the last setup() of that object and the priors of the last set_priors() of that object. A call that raises an exception changes nothing. Priors from a file are used with a single number of components only.", "quantifier": "all sessions: any number of objects of the five classes, all sequences of setup, set_priors and run on them with any numbers of components, data files and prior files, exceptions caught or not", "why_tests_cant": "tests use one object per process; the claim is about every interleaving of calls on several objects, and where it fails memory is overwritten silently", "anchors": ["python/pymica/pymica.pyx:set_priors", "python/pymica/pymica.pyx:setup", "python/pymica/pymica.pyx:run", "src/init.c:set_prior_file", "src/read.c:set_parset", "src/mc_line.c:mc_line", "src/dnest_line.c:dnest_line"]}
